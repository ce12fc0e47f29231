import Verif.Stack.CoNewLemmas
import Verif.Stack.Overflow

/-!
C52: arrays from `lf::co_new`.
-/
namespace Verif.Stack.CoNew

/-- What any run of a coroutine body leaves behind. -/
structure After (i f : Nat) (live : List (Nat × Nat)) (s s' : St) : Prop where
  reach : Reach s'.w
  obj : s'.w.obj i = some ⟨f, true, live⟩
  slet : s'.slet = f
  lifo : Lifo i live s.w s'.w
  log : ∃ new, s'.log = s.log ++ new ∧ ∀ L, Inside L live → replay new L = some L

def Fine (i f : Nat) (live : List (Nat × Nat)) (s : St) : Out → Prop
  | .ok s' => After i f live s s'
  | .thrown s' => After i f live s s'
  | .ub => False

theorem After.trans {i f : Nat} {live : List (Nat × Nat)} {s s' s'' : St} (a : After i f live s s') (b : After i f live s' s'') :
    After i f live s s'' := by
  obtain ⟨n1, e1, h1⟩ := a.log
  obtain ⟨n2, e2, h2⟩ := b.log
  refine ⟨b.reach, b.obj, b.slet, Lifo.trans a.lifo b.lifo, n1 ++ n2, by rw [e2, e1, List.append_assoc], fun L hL => ?_⟩
  rw [replay_append, h1 L hL]
  exact h2 L hL

theorem fine_trans {i f : Nat} {live : List (Nat × Nat)} {s s' : St} {r : Out} (a : After i f live s s') (b : Fine i f live s' r) :
    Fine i f live s r := by
  cases r with
  | ok s'' => exact a.trans b
  | thrown s'' => exact a.trans b
  | ub => exact b

theorem top_eq {i f : Nat} {b : Bool} {live : List (Nat × Nat)} {w : World} (h : w.obj i = some ⟨f, b, live⟩) : top i w = f := by
  simp only [top, h]

theorem inside_cons {L live : List (Nat × Nat)} (h : Inside L live) (x : Nat × Nat) : Inside L (x :: live) := by
  intro y hy
  obtain ⟨z, hz, h1⟩ := h y hy
  exact ⟨z, List.mem_cons_of_mem _ hz, h1⟩

theorem inside_append {L M live : List (Nat × Nat)} (h : Inside L live) (h' : Inside M live) : Inside (M ++ L) live := by
  intro y hy
  rcases List.mem_append.1 hy with hy | hy
  · exact h' y hy
  · exact h y hy

theorem elems_inside {p sz k n : Nat} (hn : k * sz ≤ n) (live : List (Nat × Nat)) : Inside (elems p sz k) ((p, n) :: live) := by
  intro y hy
  have := elems_mem hy
  exact ⟨(p, n), List.mem_cons_self, this.1, by show y.1 + y.2 ≤ p + n; omega⟩

/-- `frame::stacklet()` says which stack the frame is on, so adopting it changes nothing. -/
theorem takeStack_ok {i f : Nat} {live : List (Nat × Nat)} {s : St} (hw : Reach s.w) (ho : s.w.obj i = some ⟨f, true, live⟩)
    (hs : s.slet = f) : takeStack i s = .ok s := by
  obtain ⟨G, hi⟩ := reach_inv hw
  have e := adopt_spec (hi.rep i _ ho)
  simp only at e
  simp only [takeStack, hs, e, ho]
  obtain ⟨⟨h, ob⟩, sl, lg, tk⟩ := s
  simp only [setObj] at ho hs ⊢
  subst hs
  congr 3
  funext j
  by_cases c : j = i
  · subst c; simp [ho]
  · simp [c]

theorem alloc_fine {O : Oracle} {i : Nat} (hO : OracleOk O i) {s : St} (hw : Reach s.w) {f : Nat} {live : List (Nat × Nat)}
    (ho : s.w.obj i = some ⟨f, true, live⟩) (hs : s.slet = f) {size : Nat} (hz : size ≤ maxSize) (k : Nat → St → Out)
    (hk : ∀ p f' s', Reach s'.w → s'.w.obj i = some ⟨f', true, (p, size) :: live⟩ →
      Lifo i live s.w s'.w → Keep s s' → Fine i f live s (k p s')) : Fine i f live s (alloc O i size s k) := by
  rcases alloc_case hO hw ho hz k with ⟨s', e, hr, hobj, hl, hkeep⟩ | ⟨p, f', s1, e, hr, hobj, hl, hkeep⟩
  · rw [e]
    exact ⟨hr, hobj, by rw [hkeep.slet, hs], hl, [], by simp [hkeep.log], fun _ _ => rfl⟩
  · rw [e]
    exact hk p f' s1 hr hobj hl hkeep

/-- The end of a block that holds an allocation. -/
theorem close {O : Oracle} {i : Nat} (hO : OracleOk O i) {f f' p n : Nat} {live : List (Nat × Nat)} {s s1 s3 : St}
    (hw : Reach s.w) (ho : s.w.obj i = some ⟨f, true, live⟩) (h1 : Lifo i live s.w s1.w)
    (hr3 : Reach s3.w) (ho3 : s3.w.obj i = some ⟨f', true, (p, n) :: live⟩) (hl3 : Lifo i ((p, n) :: live) s1.w s3.w)
    (hlog3 : ∃ new, s3.log = s1.log ++ new ∧ ∀ L, Inside L ((p, n) :: live) → replay new L = some L) (pre post : List Ev) (elog : s1.log = s.log ++ pre)
    (hrep : ∀ L, Inside L live → ∃ M, replay pre L = some M ∧ Inside M ((p, n) :: live) ∧ replay post M = some L)
    (k : St → Out) (hk : ∀ s4, Reach s4.w → s4.w.obj i = some ⟨f, true, live⟩ → Lifo i live s.w s4.w →
      s4.slet = s3.slet → (∃ new, s4.log = s.log ++ new ∧ ∀ L, Inside L live → replay new L = some L) →
      Fine i f live s (k s4)) :
    Fine i f live s (dealloc O i p { s3 with log := s3.log ++ post } k) := by
  obtain ⟨f2, s4, e, hr, hobj, hl, hkeep⟩ := dealloc_case hO (s := { s3 with log := s3.log ++ post }) hr3 ho3 k
  rw [e]
  have hl2 : Lifo i live s.w s4.w := Lifo.trans (Lifo.trans h1 (Lifo.weaken (List.suffix_cons _ _) hl3)) hl
  have hf : f2 = f := (lifo_restores hw ho rfl hl2 hobj rfl).1
  subst hf
  refine hk s4 hr hobj hl2 hkeep.slet ?_
  obtain ⟨new, en, hn⟩ := hlog3
  refine ⟨pre ++ new ++ post, ?_, fun L hL => ?_⟩
  · rw [hkeep.log]
    show s3.log ++ post = _
    rw [en, elog]; simp only [List.append_assoc]
  · obtain ⟨M, m1, m2, m3⟩ := hrep L hL
    rw [replay_append, replay_append, m1]
    simp only [Option.bind_some]
    rw [hn M m2]
    exact m3

theorem eval_ok {O : Oracle} {i : Nat} (hO : OracleOk O i) (P : Prog) (hP : Wf P) {s : St} (hw : Reach s.w) {f : Nat}
    {live : List (Nat × Nat)} (ho : s.w.obj i = some ⟨f, true, live⟩) (hs : s.slet = f) :
    Fine i f live s (eval O i P s) := by
  induction P generalizing s f live with
  | skip => exact ⟨hw, ho, hs, .refl _, [], by simp, fun _ _ => rfl⟩
  | throw => exact ⟨hw, ho, hs, .refl _, [], by simp, fun _ _ => rfl⟩
  | seq P Q ihP ihQ =>
    have h1 := ihP hP.1 hw ho hs
    simp only [eval]
    cases e : eval O i P s with
    | ok s' => rw [e] at h1; exact fine_trans h1 (ihQ hP.2 h1.reach h1.obj h1.slet)
    | thrown s' => rw [e] at h1; exact h1
    | ub => rw [e] at h1; exact h1
  | tryCatch P Q ihP ihQ =>
    have h1 := ihP hP.1 hw ho hs
    simp only [eval]
    cases e : eval O i P s with
    | ok s' => rw [e] at h1; exact h1
    | thrown s' => rw [e] at h1; exact fine_trans h1 (ihQ hP.2 h1.reach h1.obj h1.slet)
    | ub => rw [e] at h1; exact h1
  | migrate =>
    simp only [eval, takeStack_ok hw ho hs]
    exact ⟨hw, ho, hs, .refl _, [], by simp, fun _ _ => rfl⟩
  | coNew count sz fails body ih =>
    obtain ⟨hz, hc, hb⟩ := hP
    have hmod : (count * sz) % W = count * sz := Nat.mod_eq_of_lt (by have := W_eq; omega)
    simp only [eval, hmod]
    rw [if_pos (by rw [hs, top_eq ho])]
    refine alloc_fine hO hw ho hs hc _ fun p f' s1 hr hobj hl hkeep => ?_
    have hkc : madeOf count fails ≤ count := by unfold madeOf; split <;> omega
    have hkn : madeOf count fails * sz ≤ count * sz := Nat.mul_le_mul_right sz hkc
    have hrep : ∀ L, Inside L live → ∃ M, replay (ctors p sz (madeOf count fails)) L = some M ∧
        Inside M ((p, count * sz) :: live) ∧ replay (dtors p sz (madeOf count fails)) M = some L := by
      intro L hL
      refine ⟨_, replay_ctors (fresh_apart hr hobj hL hkn), ?_, replay_dtors_all hz L⟩
      exact inside_append (inside_cons hL _) (elems_inside hkn _)
    split
    · -- a constructor throws
      refine close hO (s1 := { s1 with log := s1.log ++ ctors p sz (madeOf count fails), slet := f' })
        (s3 := { s1 with log := s1.log ++ ctors p sz (madeOf count fails) }) (f' := f') (n := count * sz) hw ho hl
        hr hobj (.refl _) ⟨[], by simp, fun _ _ => rfl⟩ (ctors p sz (madeOf count fails)) (dtors p sz (madeOf count fails)) (by simp [hkeep.log]) hrep .thrown ?_
      intro s4 h1 h2 h3 h4 h5
      exact ⟨h1, h2, by rw [h4]; show s1.slet = f; rw [hkeep.slet, hs], h3, h5⟩
    · have hk : madeOf count fails = count := by omega
      have hb := ih hb (s := { s1 with log := s1.log ++ ctors p sz (madeOf count fails), slet := top i s1.w }) hr hobj (top_eq hobj)
      cases e : eval O i body { s1 with log := s1.log ++ ctors p sz (madeOf count fails), slet := top i s1.w } with
      | ub => rw [e] at hb; exact hb
      | ok s3 =>
        rw [e] at hb
        simp only [freeArray]
        rw [if_pos (by rw [hb.slet, top_eq hb.obj])]
        rw [hk] at hrep
        refine close hO (s1 := { s1 with log := s1.log ++ ctors p sz (madeOf count fails), slet := top i s1.w }) hw ho hl hb.reach hb.obj
          hb.lifo hb.log (ctors p sz count) (dtors p sz count) (by simp [hkeep.log, hk]) hrep _ ?_
        intro s4 h1 h2 h3 _ h5
        exact ⟨h1, h2, top_eq h2, h3, h5⟩
      | thrown s3 =>
        rw [e] at hb
        simp only [freeArray]
        rw [if_pos (by rw [hb.slet, top_eq hb.obj])]
        rw [hk] at hrep
        refine close hO (s1 := { s1 with log := s1.log ++ ctors p sz (madeOf count fails), slet := top i s1.w }) hw ho hl hb.reach hb.obj
          hb.lifo hb.log (ctors p sz count) (dtors p sz count) (by simp [hkeep.log, hk]) hrep _ ?_
        intro s4 h1 h2 h3 _ h5
        exact ⟨h1, h2, top_eq h2, h3, h5⟩
  | call size body ih =>
    obtain ⟨hz, hc, hb⟩ := hP
    simp only [eval]
    refine alloc_fine hO hw ho hs hc _ fun p f' s1 hr hobj hl hkeep => ?_
    have hrep : ∀ L, Inside L live → ∃ M, replay [.ctor p size] L = some M ∧
        Inside M ((p, size) :: live) ∧ replay [.dtor p size] M = some L := by
      intro L hL
      refine ⟨(p, size) :: L, ?_, ?_, ?_⟩
      · simp only [replay]
        rw [if_pos (List.all_eq_true.2 (fresh_apart hr hobj hL (Nat.le_refl _)))]
      · intro y hy
        rcases List.mem_cons.1 hy with rfl | hy
        · exact ⟨_, List.mem_cons_self, Nat.le_refl _, Nat.le_refl _⟩
        · exact inside_cons hL _ y hy
      · simp [replay]
    have hb := ih hb (s := { s1 with log := s1.log ++ [.ctor p size], slet := top i s1.w }) hr hobj (top_eq hobj)
    cases e : eval O i body { s1 with log := s1.log ++ [.ctor p size], slet := top i s1.w } with
    | ub => rw [e] at hb; exact hb
    | ok s3 =>
      rw [e] at hb
      simp only [freeFrame]
      rw [if_pos (by rw [hb.slet, top_eq hb.obj])]
      refine close hO (s1 := { s1 with log := s1.log ++ [.ctor p size], slet := top i s1.w }) hw ho hl hb.reach hb.obj hb.lifo hb.log [.ctor p size] [.dtor p size] (by simp [hkeep.log]) hrep _ ?_
      intro s4 h1 h2 h3 _ h5
      exact ⟨h1, h2, hs, h3, h5⟩
    | thrown s3 =>
      rw [e] at hb
      simp only [freeFrame]
      rw [if_pos (by rw [hb.slet, top_eq hb.obj])]
      refine close hO (s1 := { s1 with log := s1.log ++ [.ctor p size], slet := top i s1.w }) hw ho hl hb.reach hb.obj hb.lifo hb.log [.ctor p size] [.dtor p size] (by simp [hkeep.log]) hrep _ ?_
      intro s4 h1 h2 h3 _ h5
      exact ⟨h1, h2, hs, h3, h5⟩

/-! ### The property -/

/-- How a run ended. -/
def Out.state : Out → Option St
  | .ok s => some s
  | .thrown s => some s
  | .ub => none

theorem fine_state {i f : Nat} {live : List (Nat × Nat)} {s : St} {r : Out} (h : Fine i f live s r) :
    ∃ s', r.state = some s' ∧ After i f live s s' := by
  cases r with
  | ok s' => exact ⟨s', rfl, h⟩
  | thrown s' => exact ⟨s', rfl, h⟩
  | ub => exact h.elim

/-- **C52** (the stack). A coroutine that knows the stack it is on runs any body, with any arrays, calls, exceptions, failures
of `malloc` and moves between workers, while the other workers do anything to their stacks: no assertion fails and no dead
pointer is used; at the end, however it ended, it still knows its stack, which has the allocations, the top stacklet and the
stack pointers it had before. -/
theorem stack_restored {O : Oracle} {i : Nat} (hO : OracleOk O i) {P : Prog} (hP : Wf P) {s : St} (hw : Reach s.w) {f : Nat}
    {live : List (Nat × Nat)} (ho : s.w.obj i = some ⟨f, true, live⟩) (hs : s.slet = f) :
    ∃ s', (eval O i P s).state = some s' ∧ s'.slet = s.slet ∧ s'.w.obj i = s.w.obj i ∧
      ∀ a b, Below s.w.heap f a → s.w.heap a = some b →
        ∃ b', s'.w.heap a = some b' ∧ b'.sp = b.sp ∧ b'.lo = b.lo ∧ b'.hi = b.hi ∧ b'.prev = b.prev := by
  obtain ⟨s', e, h⟩ := fine_state (eval_ok hO P hP hw ho hs)
  exact ⟨s', e, by rw [h.slet, hs], by rw [h.obj, ho], (lifo_restores hw ho rfl h.lifo h.obj rfl).2⟩

/-- **C52** (lifetimes). Every object, array element or frame, is constructed in bytes that no other live object has, and is
destroyed exactly once, while it lives: replaying what the run did never fails and ends with the objects that were there. -/
theorem lifetimes {O : Oracle} {i : Nat} (hO : OracleOk O i) {P : Prog} (hP : Wf P) {s : St} (hw : Reach s.w) {f : Nat}
    {live : List (Nat × Nat)} (ho : s.w.obj i = some ⟨f, true, live⟩) (hs : s.slet = f) {L : List (Nat × Nat)}
    (hL : Inside L live) :
    ∃ s' new, (eval O i P s).state = some s' ∧ s'.log = s.log ++ new ∧ replay new L = some L := by
  obtain ⟨s', e, h⟩ := fine_state (eval_ok hO P hP hw ho hs)
  obtain ⟨new, h1, h2⟩ := h.log
  exact ⟨s', new, e, h1, h2 L hL⟩

/-- The state in which the block runs: the elements are constructed, in order, in a block of the heap. -/
structure Made (i p count sz : Nat) (s s1 : St) : Prop where
  log : s1.log = s.log ++ ctors p sz count
  aligned : 16 ∣ p
  bounds : ∃ a b, s1.w.heap a = some b ∧ a + hdr ≤ p ∧ p + count * sz ≤ a + b.size
  reach : Reach s1.w
  obj : ∃ f live, s1.w.obj i = some ⟨f, true, (p, count * sz) :: live⟩ ∧ s1.slet = f

/-- **C52** (the array). `co_await lf::co_new<T>(count)` either throws `std::bad_alloc`, having done nothing; or a constructor
threw at element `k`: exactly the `k` elements before it were constructed, they are destroyed and the exception comes out; or
all `count` elements are constructed, the block runs, and when it ends, normally or by an exception, which goes on, all
`count` are destroyed. -/
theorem array {O : Oracle} {i : Nat} (hO : OracleOk O i) {count sz : Nat} {fails : Option Nat} {body : Prog}
    (hP : Wf (.coNew count sz fails body)) {s : St} (hw : Reach s.w) {f : Nat}
    {live : List (Nat × Nat)} (ho : s.w.obj i = some ⟨f, true, live⟩) (hs : s.slet = f) :
    (∃ s', eval O i (.coNew count sz fails body) s = .thrown s' ∧ s'.log = s.log) ∨
    (∃ s' p k, fails = some k ∧ k < count ∧ eval O i (.coNew count sz fails body) s = .thrown s' ∧
      s'.log = s.log ++ ctors p sz k ++ dtors p sz k) ∨
    (∃ p s1 s' mid, (∀ k, fails = some k → count ≤ k) ∧ Made i p count sz s s1 ∧
      s'.log = s.log ++ ctors p sz count ++ mid ++ dtors p sz count ∧
      ((∃ s2, eval O i body s1 = .ok s2 ∧ s2.log = s1.log ++ mid ∧ eval O i (.coNew count sz fails body) s = .ok s') ∨
       ∃ s2, eval O i body s1 = .thrown s2 ∧ s2.log = s1.log ++ mid ∧ eval O i (.coNew count sz fails body) s = .thrown s')) := by
  obtain ⟨hz, hc, hb⟩ := hP
  have hmod : (count * sz) % W = count * sz := Nat.mod_eq_of_lt (by have := W_eq; omega)
  simp only [eval, hmod]
  rw [if_pos (by rw [hs, top_eq ho])]
  generalize hg : (fun (p : Nat) (s1 : St) =>
    let k := madeOf count fails
    let s2 := { s1 with log := s1.log ++ ctors p sz k }
    if k < count then
      dealloc O i p { s2 with log := s2.log ++ dtors p sz k } .thrown
    else
      match eval O i body { s2 with slet := top i s2.w } with
      | .ok s3 => freeArray O i p count sz s3 .ok
      | .thrown s3 => freeArray O i p count sz s3 .thrown
      | .ub => .ub) = K
  have hK : ∀ p s1, K p s1 = _ := fun p s1 => (congrFun (congrFun hg p) s1).symm
  clear hg
  rcases alloc_case hO hw ho hc K with ⟨s', e, _, _, _, hkeep⟩ | ⟨p, f', s1, e, hr, hobj, hl, hkeep⟩
  · exact Or.inl ⟨s', e, hkeep.log⟩
  · right
    rw [e, hK]
    dsimp only
    have hm : (∀ k, fails = some k → count ≤ k) ∧ madeOf count fails = count ∨
        ∃ k, fails = some k ∧ k < count ∧ madeOf count fails = k := by
      cases hf : fails with
      | none => left; exact ⟨nofun, rfl⟩
      | some k =>
        by_cases c : k < count
        · right; exact ⟨k, rfl, c, by unfold madeOf; dsimp only; omega⟩
        · left; exact ⟨fun _ h => by cases h; omega, by unfold madeOf; dsimp only; omega⟩
    rcases hm with ⟨hf, hm⟩ | ⟨k, hf, hlt, hm⟩
    · right
      rw [hm, if_neg (Nat.lt_irrefl _)]
      have hbd := eval_ok hO body hb (s := { s1 with log := s1.log ++ ctors p sz count, slet := top i s1.w }) hr hobj (top_eq hobj)
      obtain ⟨b1, b2⟩ := alloc_in_bounds hr hobj (p := p) (n := count * sz) List.mem_cons_self
      have hmade : Made i p count sz s { s1 with log := s1.log ++ ctors p sz count, slet := top i s1.w } :=
        ⟨by simp [hkeep.log], b1, b2, hr, f', live, hobj, top_eq hobj⟩
      cases e2 : eval O i body { s1 with log := s1.log ++ ctors p sz count, slet := top i s1.w } with
      | ub => rw [e2] at hbd; exact hbd.elim
      | ok s3 =>
        rw [e2] at hbd
        obtain ⟨mid, l1, _⟩ := hbd.log
        obtain ⟨f2, s4, e3, _, _, _, k2⟩ := dealloc_case hO (s := { s3 with log := s3.log ++ dtors p sz count }) hbd.reach hbd.obj
          (fun s' => .ok { s' with slet := top i s'.w })
        refine ⟨p, _, { s4 with slet := top i s4.w }, mid, hf, hmade, ?_, Or.inl ⟨s3, e2, l1, ?_⟩⟩
        · show s4.log = _
          rw [k2.log]
          show s3.log ++ _ = _
          rw [l1]; simp [hkeep.log]
        · simp only [freeArray]
          rw [if_pos (by rw [hbd.slet, top_eq hbd.obj])]
          exact e3
      | thrown s3 =>
        rw [e2] at hbd
        obtain ⟨mid, l1, _⟩ := hbd.log
        obtain ⟨f2, s4, e3, _, _, _, k2⟩ := dealloc_case hO (s := { s3 with log := s3.log ++ dtors p sz count }) hbd.reach hbd.obj
          (fun s' => .thrown { s' with slet := top i s'.w })
        refine ⟨p, _, { s4 with slet := top i s4.w }, mid, hf, hmade, ?_, Or.inr ⟨s3, e2, l1, ?_⟩⟩
        · show s4.log = _
          rw [k2.log]
          show s3.log ++ _ = _
          rw [l1]; simp [hkeep.log]
        · simp only [freeArray]
          rw [if_pos (by rw [hbd.slet, top_eq hbd.obj])]
          exact e3
    · left
      rw [hm, if_pos hlt]
      obtain ⟨f2, s4, e3, _, _, _, k2⟩ := dealloc_case hO
        (s := { s1 with log := s1.log ++ ctors p sz k ++ dtors p sz k }) hr hobj .thrown
      refine ⟨s4, p, k, hf, hlt, e3, ?_⟩
      rw [k2.log]
      show s1.log ++ _ ++ _ = _
      rw [hkeep.log]

/-! ### A concrete run

On the stack of Verif.Stack.Overflow, with one small frame, a coroutine makes an array of a thousand 8-byte elements, which
needs a second stacklet; then the constructor of element 3 throws. -/

noncomputable def exO : Oracle := ⟨fun _ => only exH2 8144 32768, fun _ => []⟩

def exS : St := ⟨⟨exH2, fun j => if j = 0 then some ⟨16384, true, [(16432, 100)]⟩ else none⟩, 16384, [], 0⟩

theorem exO_ok : OracleOk exO 0 := ⟨fun _ => ex_good, fun _ _ h => by cases h⟩

/-- The array is made, a coroutine is called in the block, and everything is taken back. -/
def exP : Prog := .seq (.tryCatch (.coNew 1000 8 (some 3) .skip) .skip) (.coNew 1000 8 none (.seq (.call 64 .throw) .migrate))

theorem exP_wf : Wf exP := by
  have := W_eq
  exact ⟨⟨⟨by omega, by omega, trivial⟩, trivial⟩, by omega, by omega, ⟨by omega, by omega, trivial⟩, trivial⟩

example : ∃ s', (eval exO 0 exP exS).state = some s' ∧ replay s'.log [] = some [] ∧ s'.w.obj 0 = exS.w.obj 0 := by
  have hP := exP_wf
  obtain ⟨s', new, h1, h2, h3⟩ := lifetimes exO_ok hP (s := exS) ex_reach2 (i := 0) rfl rfl (L := []) (by intro x hx; cases hx)
  obtain ⟨s2, k1, _, k2, _⟩ := stack_restored exO_ok hP (s := exS) ex_reach2 (i := 0) rfl rfl
  rw [h1] at k1; cases k1
  exact ⟨s', h1, by rw [h2]; exact h3, k2⟩

/-- The constructor of element 3 throws: three elements are constructed and destroyed. -/
example : ∃ s', eval exO 0 (.coNew 1000 8 (some 3) .skip) exS = .thrown s' ∧
    s'.log = [.ctor 32816 8, .ctor 32824 8, .ctor 32832 8, .dtor 32816 8, .dtor 32824 8, .dtor 32832 8] := by
  have hmod : (1000 * 8) % W = 8000 := Nat.mod_eq_of_lt (by have := W_eq; omega)
  have hex : exec (exO.m exS.tick) (.alloc 0 8000) exS.w = _ := ex_exec
  simp only [eval]
  rw [if_pos (by rfl), hmod]
  simp only [alloc]
  have henv : envRun (exO.env exS.tick) exS.w = some exS.w := rfl
  rw [henv]
  dsimp only
  rw [hex]
  dsimp only
  rw [if_pos (by decide)]
  obtain ⟨f2, s4, e3, _, _, _, k2⟩ := dealloc_case exO_ok
    (s := ⟨⟨exH3, fun j => if j = 0 then some ⟨32768, true, [(32816, 8000), (16432, 100)]⟩ else none⟩, 16384,
      ctors 32816 8 3 ++ dtors 32816 8 3, 1⟩) ex_reach (i := 0) rfl .thrown
  refine ⟨s4, e3, ?_⟩
  rw [k2.log]; rfl

end Verif.Stack.CoNew
