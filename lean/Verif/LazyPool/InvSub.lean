import Verif.LazyPool.InvData

/-! Submissions: where a job is, and who will wake the worker. -/
namespace Verif.LazyPool
open Verif.EventCount

/-- The worker found its list empty and may go to sleep without looking again. -/
def committed : Pc → Bool
  | .stopChk | .dec | .chk | .look | .asleep => true
  | _ => false

/-- The places at which the local `handle` exists. -/
def holds : Pc → Bool
  | .cancelPop | .tws1 | .tws2 | .tws3 | .act | .scan | .sc2 | .sc3 | .work => true
  | _ => false

structure Sub (c : Cfg) (s : St) : Prop where
  inbox : ∀ j w, j ∈ s.inbox w ↔ s.loc j = .inbox w
  hand : ∀ j w, j ∈ s.hand w ↔ s.loc j = .hand w
  started : ∀ j, j ∈ s.started ↔ s.loc j = .started
  unsent : ∀ j, s.call j = .unsent ↔ s.loc j = .unsent
  nd1 : ∀ w, (s.inbox w).Nodup
  nd2 : ∀ w, (s.hand w).Nodup
  nd3 : s.started.Nodup
  lt1 : ∀ j w, s.loc j = .inbox w → w < c.N
  lt2 : ∀ j w, s.loc j = .hand w → w < c.N
  free : ∀ w, w < c.N → s.hand w ≠ [] → holds (s.pc w) = true
  seen : ∀ j w, w < c.N → s.loc j = .inbox w → committed (s.pc w) = true → s.call j = .pushed w ∨ s.at_ w < s.n (c.dom w)
  rouse : ∀ j w, w < c.N → s.loc j = .inbox w → s.pc w = .asleep → s.call j = .pushed w ∨ s.call j = .waking w

theorem start_sub (c : Cfg) : Sub c (St.start c) := by
  constructor <;> simp [St.start]

/-- A registered worker makes its domain's waiter count positive. -/
theorem must_of {c : Cfg} {s : St} (h : Counts c s) {w : Nat} (hw : w < c.N) (hr : reg (s.pc w) = true) :
    s.must (c.dom w) = true := by
  have h1 := (h.rep (c.dom w)).waiters
  have h2 : 0 < cnt c reg (c.dom w) s := cnt_pos.2 ⟨w, hw, hr, rfl⟩
  unfold St.must
  rw [h1]; simp; omega

set_option maxHeartbeats 4000000 in
theorem sub_step_loc {c : Cfg} {a : Actor} {s s' : St} (hs : Sub c s) (st : Step c a s s') :
    (∀ j w, j ∈ s'.inbox w ↔ s'.loc j = .inbox w) ∧ (∀ j w, j ∈ s'.hand w ↔ s'.loc j = .hand w) ∧
    (∀ j, j ∈ s'.started ↔ s'.loc j = .started) ∧ (∀ j, s'.call j = .unsent ↔ s'.loc j = .unsent) ∧
    (∀ w, (s'.inbox w).Nodup) ∧ (∀ w, (s'.hand w).Nodup) ∧ s'.started.Nodup ∧
    (∀ j w, s'.loc j = .inbox w → w < c.N) ∧ (∀ j w, s'.loc j = .hand w → w < c.N) := by
  obtain ⟨h1, h2, h3, h4, n1, n2, n3, l1, l2, fr, -, -⟩ := hs
  have key : (s'.inbox = s.inbox ∧ s'.hand = s.hand ∧ s'.started = s.started ∧ s'.loc = s.loc ∧
      (∀ j, s'.call j = .unsent ↔ s.call j = .unsent)) ∨
      (∃ w, w < c.N ∧ s.hand w = [] ∧ s'.inbox = upd s.inbox w [] ∧ s'.hand = upd s.hand w (s.inbox w) ∧ s'.started = s.started ∧
        s'.loc = (fun j => if s.loc j = .inbox w then .hand w else s.loc j) ∧ s'.call = s.call) ∨
      (∃ w j js, w < c.N ∧ s.hand w = j :: js ∧ s'.inbox = s.inbox ∧ s'.hand = upd s.hand w js ∧ s'.started = j :: s.started ∧
        s'.loc = upd s.loc j .started ∧ s'.call = s.call) ∨
      (∃ w j, w < c.N ∧ s.call j = .unsent ∧ s'.inbox = upd s.inbox w (s.inbox w ++ [j]) ∧ s'.hand = s.hand ∧
        s'.started = s.started ∧ s'.loc = upd s.loc j (.inbox w) ∧ s'.call = upd s.call j (.pushed w)) := by
    cases st with
    | pop1Some _ w hw hp hi =>
      refine .inr (.inl ⟨w, hw, ?_, rfl, rfl, rfl, rfl, rfl⟩)
      have := fr w hw; rw [hp] at this; simpa [holds] using this
    | pop2Some _ w hw hp hi =>
      refine .inr (.inl ⟨w, hw, ?_, rfl, rfl, rfl, rfl, rfl⟩)
      have := fr w hw; rw [hp] at this; simpa [holds] using this
    | run _ w j js hw hp hh => exact .inr (.inr (.inl ⟨w, j, js, hw, hh, rfl, rfl, rfl, rfl, rfl⟩))
    | push _ j w hj hw => exact .inr (.inr (.inr ⟨w, j, hw, hj, rfl, rfl, rfl, rfl, rfl⟩))
    | _ =>
      refine .inl ⟨rfl, rfl, rfl, rfl, ?_⟩
      simp only [doWake, doPrep, doCancel, St.bump, doUnthief, doSleep, doAct, doNext, St.go, upd_apply]
      grind
  rcases key with ⟨e1, e2, e3, e4, e5⟩ | ⟨w, hw, hh, e1, e2, e3, e4, e5⟩ | ⟨w, j, js, hw, hh, e1, e2, e3, e4, e5⟩ |
      ⟨w, j, hw, hj, e1, e2, e3, e4, e5⟩
  · rw [e1, e2, e3, e4]; exact ⟨h1, h2, h3, fun j => by rw [e5, h4], n1, n2, n3, l1, l2⟩
  · rw [e1, e2, e3, e4, e5]
    simp only [upd_apply]
    have : ∀ j, s.loc j ≠ .hand w := fun j hj => by have := (h2 j w).2 hj; rw [hh] at this; cases this
    refine ⟨?_, ?_, ?_, ?_, ?_, ?_, n3, ?_, ?_⟩ <;> grind
  · have hn := n2 w; rw [hh] at hn
    have hj : s.loc j = .hand w := (h2 j w).1 (by rw [hh]; simp)
    have hm : ∀ x, x ∈ js ↔ s.loc x = .hand w ∧ x ≠ j := fun x => by
      have := h2 x w; rw [hh] at this; grind
    rw [e1, e2, e3, e4, e5]
    simp only [upd_apply]
    refine ⟨?_, ?_, ?_, ?_, n1, ?_, ?_, ?_, ?_⟩ <;> grind
  · have hl := (h4 j).1 hj
    have hm : ∀ x, x ∈ s.inbox w ↔ s.loc x = .inbox w := fun x => h1 x w
    rw [e1, e2, e3, e4, e5]
    simp only [upd_apply]
    refine ⟨?_, ?_, ?_, ?_, ?_, n2, n3, ?_, ?_⟩ <;> grind

set_option maxHeartbeats 4000000 in
theorem sub_step_free {c : Cfg} {a : Actor} {s s' : St} (hs : Sub c s) (st : Step c a s s') :
    ∀ w, w < c.N → s'.hand w ≠ [] → holds (s'.pc w) = true := by
  have fr := hs.free
  clear hs
  cases st <;>
    simp only [doWake, doPop, doPrep, doCancel, St.bump, doUnthief, doSleep, doAct, doNext, St.go, upd_apply, LazyPool.rouse, Eligible] at * <;>
    grind [holds]

set_option maxHeartbeats 4000000 in
theorem sub_step_seen {c : Cfg} {a : Actor} {s s' : St} (hd : Data c s) (hs : Sub c s) (st : Step c a s s') :
    ∀ j w, w < c.N → s'.loc j = .inbox w → committed (s'.pc w) = true → s'.call j = .pushed w ∨ s'.at_ w < s'.n (c.dom w) := by
  have h1 := hs.seen
  have h2 := hd.atle
  have h3 : ∀ j w, s.loc j = .inbox w → s.inbox w ≠ [] := fun j w hj e => by
    have := (hs.inbox j w).2 hj; rw [e] at this; cases this
  have h4 := hs.unsent
  clear hd hs
  cases st <;>
    simp only [doWake, doPop, doPrep, doCancel, St.bump, doUnthief, doSleep, doAct, doNext, St.go, upd_apply, LazyPool.rouse, Eligible] at * <;>
    grind [committed]

set_option maxHeartbeats 4000000 in
theorem sub_step_rouse {c : Cfg} {a : Actor} {s s' : St} (h : Counts c s) (hd : Data c s) (few : Few c s) (hs : Sub c s)
    (st : Step c a s s') :
    ∀ j w, w < c.N → s'.loc j = .inbox w → s'.pc w = .asleep → s'.call j = .pushed w ∨ s'.call j = .waking w := by
  have h1 := hs.seen
  have h2 := hs.rouse
  have h3 := fun w => look_at h hd few (w := w)
  have h4 := fun w => must_of h (w := w)
  have h5 := hs.unsent
  have h6 : committed .look = true := rfl
  have h7 : reg .asleep = true := rfl
  clear hd hs h
  cases st <;>
    simp only [doWake, doPop, doPrep, doCancel, St.bump, doUnthief, doSleep, doAct, doNext, St.go, upd_apply, LazyPool.rouse, Eligible] at * <;>
    grind

theorem sub_step {c : Cfg} {a : Actor} {s s' : St} (h : Counts c s) (hd : Data c s) (few : Few c s) (hs : Sub c s)
    (st : Step c a s s') : Sub c s' := by
  obtain ⟨a1, a2, a3, a4, a5, a6, a7, a8, a9⟩ := sub_step_loc hs st
  exact ⟨a1, a2, a3, a4, a5, a6, a7, a8, a9, sub_step_free hs st, sub_step_seen hd hs st, sub_step_rouse h hd few hs st⟩

theorem reach_sub {c : Cfg} (hc : c.Ok) {s : St} (h : Reach c s) : Sub c s := by
  induction h with
  | start => exact start_sub c
  | step hr few st ih => exact sub_step (reach_counts hc hr) (reach_data hc hr) few ih st

end Verif.LazyPool
