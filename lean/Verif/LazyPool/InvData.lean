import Verif.LazyPool.Basic

/-! Keys, times and the stop flag. -/
namespace Verif.LazyPool
open Verif.EventCount

/-- The places at which the local `key` may still be used. -/
def keyed : Pc → Bool
  | .pop2 | .stopChk | .dec | .chk | .look | .asleep => true
  | _ => false

/-- The worker has seen `stop`. -/
def quitting : Pc → Bool
  | .quit1 | .quit2 | .quit3 | .quit4 | .fin1 | .fin2 | .fin3 | .fin4 => true
  | _ => false

structure Data (c : Cfg) (s : St) : Prop where
  atle : ∀ w, s.at_ w ≤ s.n (c.dom w)
  key : ∀ w, w < c.N → keyed (s.pc w) = true → s.key w = s.at_ w % P32
  slept : ∀ w, w < c.N → s.pc w = .asleep → s.slept w = s.at_ w
  quit : ∀ w, w < c.N → quitting (s.pc w) = true → s.stop = true
  dstop : s.dpc ≠ .alive → s.stop = true
  fin : ∀ w, w < c.N → s.pc w = .fin4 → s.latch = 0

theorem start_data (c : Cfg) : Data c (St.start c) := by
  constructor <;> simp [St.start, keyed, quitting]

/-- A worker blocks only if nobody has notified since it prepared. -/
theorem look_at {c : Cfg} {s : St} (h : Counts c s) (hd : Data c s) (few : Few c s) {w : Nat} (hw : w < c.N) (hp : s.pc w = .look)
    (he : epochOf (s.val (c.dom w)) = s.key w) : s.at_ w = s.n (c.dom w) := by
  have h1 := (h.rep (c.dom w)).epoch
  have h2 := hd.key w hw (by rw [hp]; rfl)
  have h3 := few w hw (by rw [hp]; rfl)
  have h4 := hd.atle w
  rcases Nat.lt_or_ge (s.at_ w) (s.n (c.dom w)) with hlt | hge
  · exact absurd (by rw [← h1, ← h2, he]) (epoch_ne hlt h3)
  · omega

set_option maxHeartbeats 4000000 in
theorem data_step {c : Cfg} {a : Actor} {s s' : St} (h : Counts c s) (hd : Data c s) (few : Few c s) (st : Step c a s s') :
    Data c s' := by
  have ho := others st
  have hrep : ∀ i, epochOf (s.val i) = s.n i % P32 := fun i => (h.rep i).epoch
  have hl := fun w => look_at h hd few (w := w)
  obtain ⟨h1, h2, h3, h4, h5, h6⟩ := hd
  constructor
  · cases st <;>
      simp only [doWake, doPop, doPrep, doCancel, St.bump, doUnthief, doSleep, doAct, doNext, St.go, upd_apply] <;> grind
  · cases st <;>
      simp only [doWake, doPop, doPrep, doCancel, St.bump, doUnthief, doSleep, doAct, doNext, St.go, upd_apply, rouse, Eligible] at * <;>
      grind [keyed]
  · cases st <;>
      simp only [doWake, doPop, doPrep, doCancel, St.bump, doUnthief, doSleep, doAct, doNext, St.go, upd_apply, rouse, Eligible] at * <;>
      grind
  · cases st <;>
      simp only [doWake, doPop, doPrep, doCancel, St.bump, doUnthief, doSleep, doAct, doNext, St.go, upd_apply, rouse, Eligible] at * <;>
      grind [quitting]
  · cases st <;>
      simp only [doWake, doPop, doPrep, doCancel, St.bump, doUnthief, doSleep, doAct, doNext, St.go] <;> grind
  · cases st <;>
      simp only [doWake, doPop, doPrep, doCancel, St.bump, doUnthief, doSleep, doAct, doNext, St.go, upd_apply, rouse, Eligible] at * <;>
      grind

theorem reach_data {c : Cfg} (hc : c.Ok) {s : St} (h : Reach c s) : Data c s := by
  induction h with
  | start => exact start_data c
  | step hr few st ih => exact data_step (reach_counts hc hr) ih few st

end Verif.LazyPool
