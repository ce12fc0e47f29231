import Verif.Weak.ExcModel
import Verif.Weak.JoinProps

/-! C49: exceptions of concurrent children under the C++ memory model: proofs. -/
namespace Verif.Weak.Exc
open Verif.Weak.Join

/-- Everybody who may still write in this scope knows the last message of `l`. -/
structure Known (s : St) (l : Loc) : Prop where
  p : s.ppc = .body → knows s s.ptv l
  c : ∀ i, s.cpc i = .run → knows s (s.ctv i) l

/-- Some thread is about to construct `m_eptr` with `e`, and nobody else is. -/
def OneCons (s : XSt) (e : Int) : Prop :=
  (s.ppx = some e ∧ s.j.ppc = .body ∧ ∀ i, s.cpx i = none) ∨
  (s.ppx = none ∧ ∃ i, s.cpx i = some e ∧ s.j.cpc i = .run ∧ ∀ k, k ≠ i → s.cpx k = none)

def NoCons (s : XSt) : Prop := s.ppx = none ∧ ∀ i, s.cpx i = none

/-- The state of `m_except` and `m_eptr`, given the exceptions captured. -/
def Slot (s : XSt) : Prop :=
  match s.cap with
  | [] => valOf s.j exc = 0 ∧ Known s.j eptr ∧ NoCons s
  | e :: _ => valOf s.j exc = 1 ∧ ((Known s.j eptr ∧ OneCons s e) ∨ (valOf s.j eptr = e ∧ NoCons s))

structure XI (s : XSt) : Prop where
  r : Reach s.j
  ub : s.ub = false
  slot : Slot s
  re : s.rethrow = true → s.j.ppc = .body ∧ s.j.steals = 0 ∧ knows s.j s.j.ptv exc ∧ knows s.j s.j.ptv eptr ∧ NoCons s
  hist : ∀ x ∈ s.joins, x.2 = x.1.head?

/-! ### The memory of one step -/

theorem append_old (m : Mem Loc) (x l : Loc) (v : Int) (w : View Loc) (h : (m.append x v w).len l = m.len l) (k : Nat) :
    (m.append x v w).val l k = m.val l k := by
  rw [Mem.len_append] at h
  by_cases e : l = x
  · subst e; simp at h
  · rw [Mem.val_append_ne _ _ _ e]

theorem step_val {s s' : St} (st : Step s s') (l : Loc) (h : s'.mem.len l = s.mem.len l) (k : Nat) : s'.mem.val l k = s.mem.val l k := by
  cases st <;> first | rfl | exact append_old _ _ _ _ _ h k

theorem step_valOf {s s' : St} (st : Step s s') (l : Loc) (h : s'.mem.len l = s.mem.len l) : valOf s' l = valOf s l := by
  unfold valOf Mem.last; rw [h, step_val st l h]

theorem bump_cur {tv : TV Loc} {m : Mem Loc} {x l : Loc} {v : Int} {w : View Loc} (h : (m.append x v w).len l = m.len l) :
    (tv.bump m x).cur l = tv.cur l := by
  rw [Mem.len_append] at h
  by_cases e : l = x
  · subst e; simp at h
  · simp [TV.bump, e]

theorem last_eq {m m' : Mem Loc} {l : Loc} (h : m'.len l = m.len l) : m'.last l = m.last l := by unfold Mem.last; rw [h]

theorem le_knows {s : St} {tv : TV Loc} {l : Loc} (h : TOk s.mem tv) (h1 : s.mem.last l ≤ tv.cur l) : knows s tv l := by
  have := h.wf.cur l; unfold knows; unfold Mem.last at *; omega

theorem upd_known {s : St} {f : Nat → TV Loc} {l : Loc} {n i : Nat} {x : TV Loc} (h : n ≤ x.cur l) (k : Nat)
    (hf : k ≠ i → n ≤ (f k).cur l) : n ≤ (upd f i x k).cur l := by
  by_cases e : k = i
  · subst e; rw [upd_same]; exact h
  · rw [upd_ne _ _ e]; exact hf e

/-- A step that does not write a cell leaves it known. -/
theorem Known.step {s s' : St} (r : Reach s) (st : Step s s') {n : Nat} (h : s'.mem.len (.data n) = s.mem.len (.data n))
    (k : Known s (.data n)) : Known s' (.data n) := by
  obtain ⟨-, w, -, -⟩ := inv_reach (r.step st)
  have hl := last_eq h
  suffices hh : (s'.ppc = .body → s.mem.last (.data n) ≤ s'.ptv.cur (.data n)) ∧
      ∀ i, s'.cpc i = .run → s.mem.last (.data n) ≤ (s'.ctv i).cur (.data n) from
    ⟨fun e => le_knows w.p (by rw [hl]; exact hh.1 e), fun i e => le_knows (w.c i) (by rw [hl]; exact hh.2 i e)⟩
  have kp : s.ppc = .body → s.mem.last (.data n) ≤ s.ptv.cur (.data n) := fun e => Nat.le_of_eq (k.p e).symm
  have kc : ∀ i, s.cpc i = .run → s.mem.last (.data n) ≤ (s.ctv i).cur (.data n) := fun i e => Nat.le_of_eq (k.c i e).symm
  have kr : s.ppc = .ready → s.mem.last (.data n) ≤ s.ptv.cur (.data n) := fun e => Nat.le_of_eq (join_all_visible r e n).1.symm
  cases st
  case pwrite a v hb _ => exact ⟨fun _ => by rw [bump_cur h]; exact kp hb, kc⟩
  case psync x hb _ =>
    refine ⟨fun _ => ?_, kc⟩
    have := kp hb
    simp only [learn, Weak.join]; omega
  case fork i hb _ _ =>
    refine ⟨kp, fun j hj => upd_known (s := s) (kp hb) j fun e => kc j ?_⟩
    simpa [upd_ne _ _ e] using hj
  case cwrite i a v hi _ =>
    exact ⟨kp, fun j hj => upd_known (s := s) (by rw [bump_cur h]; exact kc i hi) j fun _ => kc j hj⟩
  case csync i x hi _ =>
    refine ⟨kp, fun j hj => upd_known (s := s) ?_ j fun _ => kc j hj⟩
    have := kc i hi
    simp only [learn, Weak.join]; omega
  case dec i hi =>
    have e : ((s.ctv i).rmwRel s.mem .join).cur (.data n) = (s.ctv i).cur (.data n) := by
      simp [TV.rmwRel, TV.bump, TV.read, single]
    refine ⟨kp, fun j hj => upd_known (s := s) (by rw [e]; exact kc i hi) j fun ej => kc j ?_⟩
    simpa [upd_ne _ _ ej] using hj
  case win i hi =>
    refine ⟨nofun, fun j hj => kc j ?_⟩
    by_cases e : j = i
    · subst e; simp [upd_same] at hj
    · simpa [upd_ne _ _ e] using hj
  case ready0 => exact ⟨nofun, kc⟩
  case await => exact ⟨nofun, kc⟩
  case check j hc _ =>
    refine ⟨fun e => ?_, kc⟩
    dsimp only at e; split at e <;> cases e
  case susp =>
    refine ⟨fun e => ?_, kc⟩
    dsimp only at e; split at e <;> cases e
  case fence => exact ⟨nofun, kc⟩
  case resume0 hr _ => exact ⟨fun _ => kr hr, kc⟩
  case reset hr _ =>
    refine ⟨fun _ => ?_, kc⟩
    rw [bump_cur h]; exact kr hr

/-- Storing a cell without release: it is a step of the program. -/
theorem cstore_step {s : St} {i n : Nat} {v : Int} (h : s.cpc i = .run) (k : knows s (s.ctv i) (.data n)) :
    Step s (cstore s i (.data n) v) := .cwrite i n v h k

theorem pstore_step {s : St} {n : Nat} {v : Int} (h : s.ppc = .body) (k : knows s s.ptv (.data n)) :
    Step s (pstore s (.data n) v) := .pwrite n v h k

theorem single_valid {s : St} (w : IW s) (l : Loc) : s.mem.Valid (single l (s.mem.last l)) := fun x => by
  have := w.m.pos x
  unfold single Mem.last; split
  · subst_vars; omega
  · omega

theorem learn_knows {s : St} (w : IW s) {tv : TV Loc} (h : TOk s.mem tv) (l : Loc) :
    (learn tv (single l (s.mem.last l))).cur l = s.mem.last l := by
  have := h.wf.cur l; have := w.m.pos l
  simp only [learn, Weak.join, single, if_true]; unfold Mem.last; omega

theorem cexch_reach {s : St} (r : Reach s) {i : Nat} (h : s.cpc i = .run) : Reach (cexch s i) := by
  obtain ⟨-, w, -, -⟩ := inv_reach r
  refine (r.step (.csync i _ h (single_valid w exc))).step (cstore_step h ?_)
  unfold knows; simp only [upd_same]; exact learn_knows w (w.c i) _

theorem pexch_reach {s : St} (r : Reach s) (h : s.ppc = .body) : Reach (pexch s) := by
  obtain ⟨-, w, -, -⟩ := inv_reach r
  exact (r.step (.psync _ h (single_valid w exc))).step (pstore_step h (learn_knows w w.p _))

theorem valOf_store (s : St) (tv : TV Loc) (l x : Loc) (v : Int) {s' : St} (h : s'.mem = s.mem.store tv l v false) :
    valOf s' x = if x = l then v else valOf s x := by
  have := Mem.lastv_append s.mem l v (tv.msg l (s.mem.len l) false) x
  unfold valOf; rw [h]; exact this

theorem exc_ne : eptr ≠ exc := by decide

theorem cexch_known {s : St} (r : Reach s) {i : Nat} (h : s.cpc i = .run) (k : Known s eptr) : Known (cexch s i) eptr := by
  obtain ⟨-, w, -, -⟩ := inv_reach r
  have r1 := r.step (.csync i _ h (single_valid w exc))
  have k1 := k.step r (.csync i _ h (single_valid w exc)) rfl
  refine k1.step r1 (cstore_step h ?_) (by simp [cstore, Mem.store, Mem.len_append, exc])
  unfold knows; simp only [upd_same]; exact learn_knows w (w.c i) _

theorem pexch_known {s : St} (r : Reach s) (h : s.ppc = .body) (k : Known s eptr) : Known (pexch s) eptr := by
  obtain ⟨-, w, -, -⟩ := inv_reach r
  have r1 := r.step (.psync _ h (single_valid w exc))
  have k1 := k.step r (.psync _ h (single_valid w exc)) rfl
  exact k1.step r1 (pstore_step h (learn_knows w w.p _)) (by simp [pstore, Mem.store, Mem.len_append, exc])

/-- No child of the task is left when nothing was stolen. -/
theorem no_child {s : St} (r : Reach s) (hb : s.ppc = .body) (h0 : s.steals = 0) (i : Nat) : s.cpc i ≠ .run ∧ s.cpc i ≠ .last := by
  obtain ⟨a, -, -, -⟩ := inv_reach r
  refine ⟨fun e => ?_, fun e => ?_⟩
  · have h1 := (a.live i).2 e
    have := a.cnt
    rw [h0] at this
    have : s.live = [] := List.length_eq_zero_iff.1 (by omega)
    rw [this] at h1; cases h1
  · have := (a.last i e).2.1; rw [hb] at this; cases this

theorem XI.init (v : Nat → Int) : XI (.init v) := by
  refine ⟨.init _, rfl, ?_, nofun, nofun⟩
  exact ⟨rfl, ⟨fun _ => rfl, fun _ _ => rfl⟩, rfl, fun _ => rfl⟩

theorem slot_nil {s : XSt} (h : Slot s) (e : s.cap = []) : valOf s.j exc = 0 ∧ Known s.j eptr ∧ NoCons s := by
  unfold Slot at h; rw [e] at h; exact h

theorem slot_cons {s : XSt} (h : Slot s) {e l} (he : s.cap = e :: l) :
    valOf s.j exc = 1 ∧ ((Known s.j eptr ∧ OneCons s e) ∨ (valOf s.j eptr = e ∧ NoCons s)) := by
  unfold Slot at h; rw [he] at h; exact h

/-- The flag is set exactly if something was captured. -/
theorem slot_flag {s : XSt} (h : Slot s) : valOf s.j exc = 0 ↔ s.cap = [] := by
  cases e : s.cap with
  | nil => simp [(slot_nil h e).1]
  | cons a l => simp [(slot_cons h e).1]

theorem XI.prog {s : XSt} {j' : St} (x : XI s) (st : Step s.j j') (h0 : j'.mem.len exc = s.j.mem.len exc)
    (h1 : j'.mem.len eptr = s.j.mem.len eptr) (hc : ∀ i, s.cpx i ≠ none → j'.cpc i = s.j.cpc i ∧ j'.ctv i = s.j.ctv i)
    (hp : s.ppx ≠ none ∨ s.rethrow = true → j'.ppc = s.j.ppc ∧ j'.ptv = s.j.ptv ∧ j'.steals = s.j.steals) :
    XI { s with j := j', rethrow := s.rethrow || (s.j.ppc == .ready && j'.ppc == .body) } := by
  refine ⟨x.r.step st, x.ub, ?_, fun hr => ?_, x.hist⟩
  · have hs := x.slot
    cases e : s.cap with
    | nil =>
      obtain ⟨a, b, c⟩ := slot_nil hs e
      unfold Slot; dsimp only
      exact ⟨by rw [step_valOf st _ h0]; exact a, b.step x.r st h1, c⟩
    | cons a l =>
      obtain ⟨b, d⟩ := slot_cons hs e
      unfold Slot; dsimp only
      refine ⟨by rw [step_valOf st _ h0]; exact b, ?_⟩
      rcases d with ⟨d1, d2⟩ | ⟨d1, d2⟩
      · refine .inl ⟨d1.step x.r st h1, ?_⟩
        rcases d2 with ⟨q1, q2, q3⟩ | ⟨q1, i, q2, q3, q4⟩
        · exact .inl ⟨q1, by dsimp only; rw [(hp (.inl (by rw [q1]; nofun))).1]; exact q2, q3⟩
        · exact .inr ⟨q1, i, q2, by dsimp only; rw [(hc i (by rw [q2]; nofun)).1]; exact q3, q4⟩
      · exact .inr ⟨by rw [step_valOf st _ h1]; exact d1, d2⟩
  · dsimp only at hr ⊢
    cases hre : s.rethrow with
    | true =>
      obtain ⟨q1, q2, q3⟩ := hp (.inr hre)
      obtain ⟨r1, r2, r3, r4, r5⟩ := x.re hre
      refine ⟨q1.trans r1, q3.trans r2, ?_, ?_, r5⟩
      · unfold knows; rw [q2, last_eq h0]; exact r3
      · unfold knows; rw [q2, last_eq h1]; exact r4
    | false =>
      rw [hre] at hr
      simp only [Bool.false_or, Bool.and_eq_true, beq_iff_eq] at hr
      obtain ⟨r1, r2⟩ := hr
      have hk : ∀ n, j'.mem.len (.data n) = s.j.mem.len (.data n) → knows j' j'.ptv (.data n) := by
        intro n hn
        have := (join_all_visible x.r r1 n).1
        cases st
        case resume0 => exact this
        case reset => unfold knows; rw [bump_cur hn, last_eq hn]; exact this
        all_goals simp_all
      have hst : j'.steals = 0 := by
        cases st
        case resume0 h => exact h
        case reset => rfl
        all_goals simp_all
      have hno : NoCons s := by
        have hl := ready_live x.r r1
        obtain ⟨a, -, -, -⟩ := inv_reach x.r
        have hcx : ∀ e, ¬ OneCons s e := by
          rintro e (⟨_, q, _⟩ | ⟨_, i, _, q, _⟩)
          · rw [r1] at q; cases q
          · have := (a.live i).2 q; rw [hl] at this; cases this
        cases e : s.cap with
        | nil => exact (slot_nil x.slot e).2.2
        | cons a l =>
          rcases (slot_cons x.slot e).2 with ⟨_, q⟩ | ⟨_, q⟩
          · exact absurd q (hcx _)
          · exact q
      exact ⟨r2, hst, hk 0 h0, hk 1 h1, hno⟩

theorem OneCons.child {s : XSt} {e e' : Int} {i : Nat} (h : OneCons s e) (hi : s.cpx i = some e') :
    e' = e ∧ s.ppx = none ∧ s.j.cpc i = .run ∧ ∀ k, k ≠ i → s.cpx k = none := by
  rcases h with ⟨_, _, q⟩ | ⟨q1, k, q2, q3, q4⟩
  · rw [q i] at hi; cases hi
  · by_cases hk : i = k
    · subst hk; rw [q2] at hi; cases hi; exact ⟨rfl, q1, q3, q4⟩
    · rw [q4 i hk] at hi; cases hi

theorem OneCons.task {s : XSt} {e e' : Int} (h : OneCons s e) (hi : s.ppx = some e') :
    e' = e ∧ s.j.ppc = .body ∧ ∀ k, s.cpx k = none := by
  rcases h with ⟨q1, q2, q3⟩ | ⟨q1, _⟩
  · rw [q1] at hi; cases hi; exact ⟨rfl, q2, q3⟩
  · rw [q1] at hi; cases hi

/-- Who constructs is the one who captured first. -/
theorem consing {s : XSt} (x : XI s) (h : ¬ NoCons s) : ∃ e l, s.cap = e :: l ∧ valOf s.j exc = 1 ∧ Known s.j eptr ∧ OneCons s e := by
  cases e : s.cap with
  | nil => exact absurd (slot_nil x.slot e).2.2 h
  | cons a l =>
    obtain ⟨q1, q2⟩ := slot_cons x.slot e
    rcases q2 with ⟨q2, q3⟩ | ⟨_, q⟩
    · exact ⟨a, l, rfl, q1, q2, q3⟩
    · exact absurd q h

theorem XI.step {s s' : XSt} (x : XI s) (st : XStep s s') : XI s' := by
  have hre0 : ∀ {i}, s.j.cpc i = .run → s.rethrow = false := by
    intro i hi
    cases hr : s.rethrow with
    | false => rfl
    | true => obtain ⟨r1, r2, -⟩ := x.re hr; exact absurd hi (no_child x.r r1 r2 i).1
  cases st with
  | prog st h0 h1 hc hp => exact x.prog st h0 h1 hc hp
  | ccap i e hi hx =>
    have hre := hre0 hi
    refine ⟨cexch_reach x.r hi, x.ub, ?_, fun h => (by dsimp only at h; rw [hre] at h; cases h), x.hist⟩
    have v0 : valOf (cexch s.j i) exc = 1 := by rw [valOf_store s.j _ exc exc 1 rfl, if_pos rfl]
    have v1 : valOf (cexch s.j i) eptr = valOf s.j eptr := by rw [valOf_store s.j _ exc eptr 1 rfl, if_neg exc_ne]
    unfold Slot; dsimp only
    cases he : s.cap with
    | nil =>
      obtain ⟨a, b, c1, c2⟩ := slot_nil x.slot he
      refine ⟨v0, .inl ⟨cexch_known x.r hi b, .inr ⟨c1, i, ?_, hi, fun k hk => ?_⟩⟩⟩
      · dsimp only; rw [upd_same, if_pos a]
      · dsimp only; rw [upd_ne _ _ hk]; exact c2 k
    | cons a l =>
      obtain ⟨b, d⟩ := slot_cons x.slot he
      have e1 : upd s.cpx i (if valOf s.j exc = 0 then some e else none) = s.cpx := by
        rw [if_neg (by rw [b]; decide)]; funext k
        by_cases hk : k = i
        · subst hk; rw [upd_same, hx]
        · rw [upd_ne _ _ hk]
      rw [e1]
      refine ⟨v0, ?_⟩
      rcases d with ⟨d1, d2⟩ | ⟨d1, d2⟩
      · exact .inl ⟨cexch_known x.r hi d1, d2⟩
      · exact .inr ⟨v1.trans d1, d2⟩
  | ccons i e hx hk =>
    obtain ⟨a, l, he, b, k, o⟩ := consing x (fun h => by rw [h.2 i] at hx; cases hx)
    obtain ⟨rfl, o1, o2, o3⟩ := o.child hx
    have hre := hre0 o2
    refine ⟨x.r.step (cstore_step o2 hk), x.ub, ?_, fun h => (by dsimp only at h; rw [hre] at h; cases h), x.hist⟩
    unfold Slot; dsimp only; rw [he]
    refine ⟨?_, .inr ⟨?_, o1, fun k => ?_⟩⟩
    · rw [valOf_store s.j _ eptr exc e rfl, if_neg exc_ne.symm]; exact b
    · show valOf _ eptr = e; rw [valOf_store s.j _ eptr eptr e rfl, if_pos rfl]
    · dsimp only
      by_cases h : k = i
      · subst h; rw [upd_same]
      · rw [upd_ne _ _ h]; exact o3 k h
  | cconsRace i e hx hk =>
    obtain ⟨a, l, he, b, k, o⟩ := consing x (fun h => by rw [h.2 i] at hx; cases hx)
    exact absurd (k.c i (o.child hx).2.2.1) hk
  | pcap e hb hre hx =>
    refine ⟨pexch_reach x.r hb, x.ub, ?_, fun h => (by dsimp only at h; rw [hre] at h; cases h), x.hist⟩
    have v0 : valOf (pexch s.j) exc = 1 := by rw [valOf_store s.j _ exc exc 1 rfl, if_pos rfl]
    have v1 : valOf (pexch s.j) eptr = valOf s.j eptr := by rw [valOf_store s.j _ exc eptr 1 rfl, if_neg exc_ne]
    unfold Slot; dsimp only
    cases he : s.cap with
    | nil =>
      obtain ⟨a, b, c1, c2⟩ := slot_nil x.slot he
      exact ⟨v0, .inl ⟨pexch_known x.r hb b, .inl ⟨by dsimp only; rw [if_pos a], hb, c2⟩⟩⟩
    | cons a l =>
      obtain ⟨b, d⟩ := slot_cons x.slot he
      rw [if_neg (by rw [b]; decide), ← hx]
      refine ⟨v0, ?_⟩
      rcases d with ⟨d1, d2⟩ | ⟨d1, d2⟩
      · exact .inl ⟨pexch_known x.r hb d1, d2⟩
      · exact .inr ⟨v1.trans d1, d2⟩
  | pcons e hx hk =>
    obtain ⟨a, l, he, b, k, o⟩ := consing x (fun h => by rw [h.1] at hx; cases hx)
    obtain ⟨rfl, o1, o2⟩ := o.task hx
    have hre : s.rethrow = false := by
      cases hr : s.rethrow with
      | false => rfl
      | true => have := (x.re hr).2.2.2.2.1; rw [this] at hx; cases hx
    refine ⟨x.r.step (pstore_step o1 hk), x.ub, ?_, fun h => (by dsimp only at h; rw [hre] at h; cases h), x.hist⟩
    unfold Slot; dsimp only; rw [he]
    refine ⟨?_, .inr ⟨?_, rfl, o2⟩⟩
    · rw [valOf_store s.j _ eptr exc e rfl, if_neg exc_ne.symm]; exact b
    · show valOf _ eptr = e; rw [valOf_store s.j _ eptr eptr e rfl, if_pos rfl]
  | pconsRace e hx hk =>
    obtain ⟨a, l, he, b, k, o⟩ := consing x (fun h => by rw [h.1] at hx; cases hx)
    exact absurd (k.p (o.task hx).2.1) hk
  | quiet hre hk hv =>
    have hc := (slot_flag x.slot).1 hv
    refine ⟨x.r, x.ub, ?_, nofun, fun y hy => ?_⟩
    · have := x.slot; unfold Slot at this ⊢; rw [hc] at this; exact this
    · rcases List.mem_append.1 hy with h | h
      · exact x.hist y h
      · rw [List.mem_singleton] at h; subst h; rw [hc]; rfl
  | throw hre hk0 hv hk1 =>
    obtain ⟨r1, r2, -, -, r5⟩ := x.re hre
    have st1 := pstore_step (v := 0) r1 hk1
    have ne : ∀ y, y ≠ eptr → (pstore s.j eptr 0).mem.len y = s.j.mem.len y := by
      intro y hy; simp [pstore, Mem.store, Mem.len_append, hy]
    have hk2 : knows (pstore s.j eptr 0) (pstore s.j eptr 0).ptv exc := by
      unfold knows; rw [last_eq (ne _ exc_ne.symm)]
      show (s.j.ptv.bump s.j.mem eptr).cur exc = _
      rw [← show _ = _ from hk0]; rfl
    have st2 := pstore_step (s := pstore s.j eptr 0) (n := 0) (v := 0) r1 hk2
    have nc := no_child x.r r1 r2
    refine ⟨(x.r.step st1).step st2, x.ub, ?_, nofun, fun y hy => ?_⟩
    · refine ⟨by dsimp only; rw [valOf_store (pstore s.j eptr 0) _ exc exc 0 rfl, if_pos rfl], ⟨fun _ => ?_, fun i hi => absurd hi (nc i).1⟩, r5⟩
      have e1 : (pstore (pstore s.j eptr 0) exc 0).mem.len eptr = s.j.mem.len eptr + 1 := by
        simp [pstore, Mem.store, Mem.len_append, eptr, exc]
      unfold knows Mem.last; dsimp only; rw [e1]
      simp [pstore, TV.bump, eptr, exc]
    · rcases List.mem_append.1 hy with h | h
      · exact x.hist y h
      · rw [List.mem_singleton] at h; subst h
        cases e : s.cap with
        | nil => exact absurd ((slot_flag x.slot).2 e) hv
        | cons a l =>
          rcases (slot_cons x.slot e).2 with ⟨_, q⟩ | ⟨q, _⟩
          · rcases q with ⟨q, _⟩ | ⟨_, i, q, _⟩
            · rw [r5.1] at q; cases q
            · rw [r5.2 i] at q; cases q
          · dsimp only [List.head?]; rw [q]
  | flagRace hre hk => exact absurd (x.re hre).2.2.1 hk
  | eptrRace hre _ hk => exact absurd (x.re hre).2.2.2.1 hk

theorem xi_reach {s : XSt} (h : XReach s) : XI s := by
  induction h with
  | init v => exact .init v
  | step _ st ih => exact ih.step st

/-! ## Property theorems -/

/-- **C49, no data race**: neither concurrent captures nor the rethrow have a data race on the storage of the exception. -/
theorem no_race {s : XSt} (h : XReach s) : s.ub = false := (xi_reach h).ub

/-- **C49, exactly one**: every completed join threw the first exception that was captured in its scope, as it was captured; nothing if
none was. -/
theorem first_rethrown {s : XSt} (h : XReach s) {caught : List Int} {thrown : Option Int} (hj : (caught, thrown) ∈ s.joins) :
    thrown = caught.head? := (xi_reach h).hist _ hj

/-- **C49, all of the scope**: when the task is about to test for an exception, no child is running and nobody is inside
`capture_exception`: what the children of the scope threw has been captured. -/
theorem all_captured {s : XSt} (h : XReach s) (hr : s.rethrow = true) :
    (∀ i, s.j.cpc i ≠ .run ∧ s.j.cpc i ≠ .last) ∧ s.ppx = none ∧ ∀ i, s.cpx i = none := by
  obtain ⟨r1, r2, -, -, r5⟩ := (xi_reach h).re hr
  exact ⟨no_child (xi_reach h).r r1 r2, r5⟩

/-- **C49, the test is truthful and the frame is left clean**: the flag is set exactly if an exception was captured since the
last join. -/
theorem flag_truthful {s : XSt} (h : XReach s) : valOf s.j exc = 0 ↔ s.cap = [] := slot_flag (xi_reach h).slot

/-- A completed join always performs the test: the task cannot go on before. -/
theorem tested {s : XSt} (h : XReach s) (hr : s.rethrow = true) :
    ∃ s', XStep s s' ∧ s'.rethrow = false ∧ s'.cap = [] ∧ s'.joins = s.joins ++ [(s.cap, s.cap.head?)] := by
  have x := xi_reach h
  obtain ⟨-, -, r3, r4, -⟩ := x.re hr
  by_cases hv : valOf s.j exc = 0
  · exact ⟨_, .quiet hr r3 hv, rfl, rfl, by rw [(slot_flag x.slot).1 hv]; rfl⟩
  · have st := XStep.throw hr r3 hv r4
    refine ⟨_, st, rfl, rfl, ?_⟩
    have := first_rethrown (h.step st) (caught := s.cap) (thrown := some (valOf s.j eptr)) (List.mem_append_right _ (List.mem_singleton.2 rfl))
    rw [← this]

/-- A step of the program while nobody is inside the functions of this model. -/
theorem XStep.prog0 {s : XSt} {j' : St} (h1 : ∀ i, s.cpx i = none) (h2 : s.ppx = none) (h3 : s.rethrow = false) (st : Step s.j j')
    (l0 : j'.mem.len exc = s.j.mem.len exc) (l1 : j'.mem.len eptr = s.j.mem.len eptr) :
    XStep s { s with j := j', rethrow := s.rethrow || (s.j.ppc == .ready && j'.ppc == .body) } :=
  .prog st l0 l1 (fun i h => absurd (h1 i) h) (fun h => by rw [h2, h3] at h; rcases h with h | h <;> simp at h)

/-- Two stolen children throw 7 and 8 at the same time: 8 is captured first, 7 is dropped; the join throws 8 and the frame is clean. -/
example : ∃ s, XReach s ∧ s.joins = [([8, 7], some 8)] ∧ valOf s.j exc = 0 ∧ s.j.steals = 0 ∧ s.j.ppc = .body := by
  have r := XReach.init (fun _ => 5)
  replace r := r.step (.prog0 (fun _ => rfl) rfl rfl (.fork 0 rfl rfl (by decide)) rfl rfl)
  replace r := r.step (.prog0 (fun _ => rfl) rfl rfl (.fork 1 rfl rfl (by decide)) rfl rfl)
  replace r := r.step (.ccap 1 8 rfl rfl)
  replace r := r.step (.ccap 0 7 rfl (by decide +kernel))
  replace r := r.step (.ccons 1 8 (by decide +kernel) (by unfold knows; decide +kernel))
  have hn : ∀ (x y : Option Int) i, y = none → upd (upd (upd (fun _ => none) 1 x) 0 y) 1 none i = (none : Option Int) := by
    intro x y i hy
    by_cases e : i = 1
    · subst e; rw [upd_same]
    · rw [upd_ne _ _ e]
      by_cases e' : i = 0
      · subst e'; rw [upd_same, hy]
      · rw [upd_ne _ _ e', upd_ne _ _ e]
  replace r := r.step (.prog0 (fun i => hn _ _ i (by decide +kernel)) rfl rfl (.dec 0 rfl) (by decide +kernel) (by decide +kernel))
  replace r := r.step (.prog0 (fun i => hn _ _ i (by decide +kernel)) rfl rfl (.dec 1 rfl) (by decide +kernel) (by decide +kernel))
  replace r := r.step (.prog0 (fun i => hn _ _ i (by decide +kernel)) rfl rfl (.await rfl (by decide +kernel)) (by decide +kernel) (by decide +kernel))
  replace r := r.step (.prog0 (fun i => hn _ _ i (by decide +kernel)) rfl rfl (.check 2 rfl (by decide +kernel)) (by decide +kernel) (by decide +kernel))
  replace r := r.step (.prog0 (fun i => hn _ _ i (by decide +kernel)) rfl (by decide +kernel) (.reset (by decide +kernel) (by decide +kernel)) (by decide +kernel) (by decide +kernel))
  replace r := r.step (.throw (by decide +kernel) (by unfold knows; decide +kernel) (by decide +kernel) (by unfold knows; decide +kernel))
  exact ⟨_, r, by decide +kernel, by decide +kernel, by decide +kernel, by decide +kernel⟩

end Verif.Weak.Exc
