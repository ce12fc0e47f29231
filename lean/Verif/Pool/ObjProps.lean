import Verif.Pool.ObjModel

/-! C51: what may be done with pool objects. -/
namespace Verif.Pool.Obj

/-! ### Specification -/
namespace Spec

/-- For every name: `none`, there is no object; `some 0`, an object that has been moved from; `some v`, a pool with `v` workers. -/
abbrev Abs := Nat → Option Nat

def set (a : Abs) (x : Nat) (v : Option Nat) : Abs := fun y => if y = x then v else a y

/-- The operations a user may do, and what they mean. -/
inductive Legal : Abs → Op → Abs → Prop where
  | make {a k x n} : a x = none → 0 < n → Legal a (.make k x n .none) (set a x (some n))
  /-- The constructor throws. -/
  | fails {a k x n f} : a x = none → 0 < n → f = .early ∨ f = .contexts → Legal a (.make k x n f) a
  | move {a y x v} : a x = some v → a y = none → Legal a (.move y x) (set (set a x (some 0)) y (some v))
  | assign {a y x v u} : a x = some v → a y = some u → y ≠ x → Legal a (.assign y x) (set (set a x (some 0)) y (some v))
  | schedule {a x i v} : a x = some v → i < v → Legal a (.schedule x i) a
  | destroy {a x v} : a x = some v → Legal a (.destroy x) (set a x none)

/-- A legal program. -/
inductive Prog : Abs → List Op → Abs → Prop where
  | nil {a} : Prog a [] a
  | cons {a b c o os} : Legal a o b → Prog b os c → Prog a (o :: os) c

end Spec

/-- A move construction or assignment. -/
def isMove : Op → Bool
  | .move _ _ => true
  | .assign _ _ => true
  | _ => false

/-- A constructor that fails after its threads have been started. -/
def isLate : Op → Bool
  | .make _ _ _ .contexts => true
  | _ => false

/-! ### Invariant -/

structure Inv (w : World) : Prop where
  own : ∀ x p, w.objs x = some p → ∀ t, t ∈ p.threads → p.share = some (w.sees t) ∧ t < w.nthread
  disj : ∀ x y p q t, w.objs x = some p → w.objs y = some q → t ∈ p.threads → t ∈ q.threads → x = y
  run : ∀ t, t ∈ w.running ↔ ∃ x p, w.objs x = some p ∧ t ∈ p.threads
  share : ∀ x p m, w.objs x = some p → p.share = some m → m < w.nshare ∧ w.stopped m = false
  uniq : ∀ x y p q m, w.objs x = some p → w.objs y = some q → p.share = some m → q.share = some m → x = y
  fresh : ∀ m, w.nshare ≤ m → w.stopped m = false

theorem Inv.init : Inv .init := by
  constructor <;> simp [World.init]

theorem set_same (f : Nat → Option Pool) (x : Nat) (p : Option Pool) : set f x p x = p := by simp [set]
theorem set_ne (f : Nat → Option Pool) {x y : Nat} (p : Option Pool) (h : y ≠ x) : set f x p y = f y := by simp [set, h]

theorem Inv.make {w : World} (h : Inv w) {x n : Nat} (hx : w.objs x = none) :
    Inv { w with
      objs := set w.objs x (some { share := some w.nshare, workers := n, threads := (List.range n).map (w.nthread + ·) })
      sees := fun t => if w.nthread ≤ t then w.nshare else w.sees t
      running := w.running ++ (List.range n).map (w.nthread + ·), nshare := w.nshare + 1, nthread := w.nthread + n } := by
  have mem : ∀ t, t ∈ (List.range n).map (w.nthread + ·) ↔ w.nthread ≤ t ∧ t < w.nthread + n := fun t => by
    simp only [List.mem_map, List.mem_range]
    constructor
    · rintro ⟨a, ha, rfl⟩; omega
    · intro ht; exact ⟨t - w.nthread, by omega, by omega⟩
  have old : ∀ y p, y ≠ x → set w.objs x (some { share := some w.nshare, workers := n, threads := (List.range n).map (w.nthread + ·) }) y = some p →
      w.objs y = some p := fun y p hy e => by rwa [set_ne _ _ hy] at e
  constructor
  · intro y p hp t ht
    by_cases e : y = x
    · subst e; dsimp only at hp; rw [set_same] at hp; cases hp
      have := (mem t).1 ht
      exact ⟨by dsimp only; rw [if_pos this.1], this.2⟩
    · have := h.own y p (old y p e hp) t ht
      exact ⟨by dsimp only; rw [if_neg (by omega)]; exact this.1, by dsimp only; omega⟩
  · intro y z p q t hp hq ht ht'
    by_cases e : y = x
    · by_cases e' : z = x
      · rw [e, e']
      · subst e; dsimp only at hp; rw [set_same] at hp; cases hp
        have := (mem t).1 ht
        have := (h.own z q (old z q e' hq) t ht').2; omega
    · by_cases e' : z = x
      · subst e'; dsimp only at hq; rw [set_same] at hq; cases hq
        have := (mem t).1 ht'
        have := (h.own y p (old y p e hp) t ht).2; omega
      · exact h.disj y z p q t (old y p e hp) (old z q e' hq) ht ht'
  · intro t
    rw [List.mem_append, h.run]
    constructor
    · rintro (⟨y, p, hp, ht⟩ | ht)
      · exact ⟨y, p, by dsimp only; rw [set_ne _ _ (by rintro rfl; rw [hx] at hp; cases hp)]; exact hp, ht⟩
      · exact ⟨x, _, set_same _ _ _, ht⟩
    · rintro ⟨y, p, hp, ht⟩
      by_cases e : y = x
      · subst e; dsimp only at hp; rw [set_same] at hp; cases hp; exact .inr ht
      · exact .inl ⟨y, p, old y p e hp, ht⟩
  · intro y p m hp hm
    by_cases e : y = x
    · subst e; dsimp only at hp; rw [set_same] at hp; cases hp; cases hm
      exact ⟨Nat.lt_succ_self _, h.fresh _ (Nat.le_refl _)⟩
    · have := h.share y p m (old y p e hp) hm
      exact ⟨by dsimp only; omega, this.2⟩
  · intro y z p q m hp hq hm hm'
    by_cases e : y = x
    · by_cases e' : z = x
      · rw [e, e']
      · subst e; dsimp only at hp; rw [set_same] at hp; cases hp; cases hm
        have := (h.share z q _ (old z q e' hq) hm').1; omega
    · by_cases e' : z = x
      · subst e'; dsimp only at hq; rw [set_same] at hq; cases hq; cases hm'
        have := (h.share y p _ (old y p e hp) hm).1; omega
      · exact h.uniq y z p q m (old y p e hp) (old z q e' hq) hm hm'
  · exact fun m hm => h.fresh m (by dsimp only at hm; omega)

/-- An object becomes another one, or is emptied. -/
theorem Inv.transfer {w : World} (h : Inv w) {x y : Nat} {p : Pool} (hx : w.objs x = some p) (hy : ∀ q, w.objs y = some q → q.threads = [])
    (hxy : y ≠ x) : Inv { w with objs := set (set w.objs x (some empty)) y (some p) } := by
  have look : ∀ z q, set (set w.objs x (some empty)) y (some p) z = some q → (z = y ∧ q = p) ∨ (z = x ∧ q = empty) ∨ (z ≠ x ∧ z ≠ y ∧ w.objs z = some q) := by
    intro z q e
    by_cases e1 : z = y
    · subst e1; rw [set_same] at e; cases e; exact .inl ⟨rfl, rfl⟩
    · rw [set_ne _ _ e1] at e
      by_cases e2 : z = x
      · subst e2; rw [set_same] at e; cases e; exact .inr (.inl ⟨rfl, rfl⟩)
      · rw [set_ne _ _ e2] at e; exact .inr (.inr ⟨e2, e1, e⟩)
  have em : ∀ t, t ∉ empty.threads := fun t => List.not_mem_nil
  constructor
  · intro z q hz t ht
    rcases look z q hz with ⟨_, rfl⟩ | ⟨_, rfl⟩ | ⟨_, _, hz⟩
    · exact h.own x q hx t ht
    · exact absurd ht (em t)
    · exact h.own z q hz t ht
  · intro a b q r t ha hb ht ht'
    rcases look a q ha with ⟨e1, rfl⟩ | ⟨_, rfl⟩ | ⟨e1, e1', ha'⟩
    · rcases look b r hb with ⟨e2, rfl⟩ | ⟨_, rfl⟩ | ⟨e2, _, hb⟩
      · rw [e1, e2]
      · exact absurd ht' (em t)
      · exact absurd (h.disj x b q r t hx hb ht ht') (Ne.symm e2)
    · exact absurd ht (em t)
    · rcases look b r hb with ⟨e2, rfl⟩ | ⟨_, rfl⟩ | ⟨e2, _, hb⟩
      · exact absurd (h.disj a x q r t ha' hx ht ht') e1
      · exact absurd ht' (em t)
      · exact h.disj a b q r t ha' hb ht ht'
  · intro t
    show t ∈ w.running ↔ _
    rw [h.run]
    constructor
    · rintro ⟨z, q, hz, ht⟩
      by_cases e1 : z = x
      · subst e1; rw [hx] at hz; cases hz
        exact ⟨y, p, set_same _ _ _, ht⟩
      · by_cases e2 : z = y
        · subst e2; rw [hy q hz] at ht; cases ht
        · exact ⟨z, q, by dsimp only; rw [set_ne _ _ e2, set_ne _ _ e1]; exact hz, ht⟩
    · rintro ⟨z, q, hz, ht⟩
      rcases look z q hz with ⟨_, rfl⟩ | ⟨_, rfl⟩ | ⟨_, _, hz⟩
      · exact ⟨x, q, hx, ht⟩
      · exact absurd ht (em t)
      · exact ⟨z, q, hz, ht⟩
  · intro z q m hz hm
    rcases look z q hz with ⟨_, rfl⟩ | ⟨_, rfl⟩ | ⟨_, _, hz⟩
    · exact h.share x q m hx hm
    · cases hm
    · exact h.share z q m hz hm
  · intro a b q r m ha hb hm hm'
    rcases look a q ha with ⟨e1, rfl⟩ | ⟨_, rfl⟩ | ⟨e1, _, ha'⟩
    · rcases look b r hb with ⟨e2, rfl⟩ | ⟨_, rfl⟩ | ⟨e2, _, hb⟩
      · rw [e1, e2]
      · cases hm'
      · exact absurd (h.uniq x b q r m hx hb hm hm') (Ne.symm e2)
    · cases hm
    · rcases look b r hb with ⟨e2, rfl⟩ | ⟨_, rfl⟩ | ⟨e2, _, hb⟩
      · exact absurd (h.uniq a x q r m ha' hx hm hm') e1
      · cases hm'
      · exact h.uniq a b q r m ha' hb hm hm'
  · exact h.fresh

/-- The object is gone. -/
theorem Inv.drop {w : World} (h : Inv w) {x : Nat} (p' : Option Pool) (hp' : p' = none ∨ p' = some empty) (hx : ∀ p, w.objs x = some p → p.threads = []) :
    Inv { w with objs := set w.objs x p' } := by
  have look : ∀ z q, set w.objs x p' z = some q → (q = empty ∨ w.objs z = some q) := by
    intro z q e
    by_cases e1 : z = x
    · subst e1; rw [set_same] at e; subst e
      rcases hp' with hp' | hp'
      · cases hp'
      · cases hp'; exact .inl rfl
    · rw [set_ne _ _ e1] at e; exact .inr e
  have em : ∀ t, t ∉ empty.threads := fun t => List.not_mem_nil
  constructor
  · intro z q hz t ht
    rcases look z q hz with rfl | hz
    · exact absurd ht (em t)
    · exact h.own z q hz t ht
  · intro a b q r t ha hb ht ht'
    rcases look a q ha with rfl | ha
    · exact absurd ht (em t)
    · rcases look b r hb with rfl | hb
      · exact absurd ht' (em t)
      · exact h.disj a b q r t ha hb ht ht'
  · intro t
    show t ∈ w.running ↔ _
    rw [h.run]
    constructor
    · rintro ⟨z, q, hz, ht⟩
      refine ⟨z, q, ?_, ht⟩
      dsimp only; rw [set_ne]; exact hz
      rintro rfl; rw [hx q hz] at ht; cases ht
    · rintro ⟨z, q, hz, ht⟩
      rcases look z q hz with rfl | hz
      · exact absurd ht (em t)
      · exact ⟨z, q, hz, ht⟩
  · intro z q m hz hm
    rcases look z q hz with rfl | hz
    · cases hm
    · exact h.share z q m hz hm
  · intro a b q r m ha hb hm hm'
    rcases look a q ha with rfl | ha
    · cases hm
    · rcases look b r hb with rfl | hb
      · cases hm'
      · exact h.uniq a b q r m ha hb hm hm'
  · exact h.fresh

/-- `shut` always returns: the threads of a pool look at the flag of that pool. -/
theorem shut_ok {w : World} (h : Inv w) {x : Nat} {p : Pool} (hx : w.objs x = some p) {m : Nat} (hm : p.share = some m) :
    shut p w = .ok { w with stopped := fun i => if i = m then true else w.stopped i, running := w.running.filter fun t => !p.threads.contains t } := by
  unfold shut
  rw [hm]
  dsimp only
  rw [if_pos]
  rw [List.all_eq_true]
  intro t ht
  have := (h.own x p hx t ht).1
  rw [hm] at this; cases this
  simp

/-- Stopped, joined and replaced by nothing or an empty object. -/
theorem Inv.shut {w : World} (h : Inv w) {x : Nat} {p : Pool} (hx : w.objs x = some p) {m : Nat} (hm : p.share = some m)
    (p' : Option Pool) (hp' : p' = none ∨ p' = some empty) :
    Inv { w with objs := set w.objs x p', stopped := fun i => if i = m then true else w.stopped i, running := w.running.filter fun t => !p.threads.contains t } := by
  have look : ∀ z q, set w.objs x p' z = some q → (q = empty ∨ z ≠ x ∧ w.objs z = some q) := by
    intro z q e
    by_cases e1 : z = x
    · subst e1; rw [set_same] at e; subst e
      rcases hp' with hp' | hp'
      · cases hp'
      · cases hp'; exact .inl rfl
    · rw [set_ne _ _ e1] at e; exact .inr ⟨e1, e⟩
  have em : ∀ t, t ∉ empty.threads := fun t => List.not_mem_nil
  constructor
  · intro z q hz t ht
    rcases look z q hz with rfl | ⟨_, hz⟩
    · exact absurd ht (em t)
    · exact h.own z q hz t ht
  · intro a b q r t ha hb ht ht'
    rcases look a q ha with rfl | ⟨_, ha⟩
    · exact absurd ht (em t)
    · rcases look b r hb with rfl | ⟨_, hb⟩
      · exact absurd ht' (em t)
      · exact h.disj a b q r t ha hb ht ht'
  · intro t
    simp only [List.mem_filter, h.run, Bool.not_eq_true', List.contains_eq_mem, decide_eq_false_iff_not]
    constructor
    · rintro ⟨⟨z, q, hz, ht⟩, hn⟩
      refine ⟨z, q, ?_, ht⟩
      rw [set_ne]; exact hz
      rintro rfl; rw [hx] at hz; cases hz; exact hn ht
    · rintro ⟨z, q, hz, ht⟩
      rcases look z q hz with rfl | ⟨e, hz⟩
      · exact absurd ht (em t)
      · exact ⟨⟨z, q, hz, ht⟩, fun ht' => e (h.disj z x q p t hz hx ht ht')⟩
  · intro z q m' hz hm'
    rcases look z q hz with rfl | ⟨e, hz'⟩
    · cases hm'
    · have := h.share z q m' hz' hm'
      refine ⟨this.1, ?_⟩
      dsimp only
      rw [if_neg]; exact this.2
      rintro rfl; exact e (h.uniq z x q p m' hz' hx hm' hm)
  · intro a b q r m ha hb hm hm'
    rcases look a q ha with rfl | ⟨_, ha⟩
    · cases hm
    · rcases look b r hb with rfl | ⟨_, hb⟩
      · cases hm'
      · exact h.uniq a b q r m ha hb hm hm'
  · intro i hi
    dsimp only at hi ⊢
    have := (h.share x p m hx hm).1
    rw [if_neg (by omega)]; exact h.fresh i hi

theorem set_set (f : Nat → Option Pool) (x : Nat) (p q : Option Pool) : set (set f x p) x q = set f x q := by
  funext y; simp only [set]; split <;> rfl

theorem Inv.step {fixed : Bool} {w w' : World} {o : Op} (h : Inv w) (e : step fixed w o = .ok w') : Inv w' := by
  cases o with
  | make k x n f =>
    simp only [Obj.step, Obj.make] at e
    split at e
    · cases e
    · rename_i hx
      split at e
      · cases e; exact h
      · split at e
        · cases e
        · split at e
          · cases e
          · split at e
            · split at e
              · cases e; exact h
              · cases e
            · cases e; exact h.make hx
  | move y x =>
    simp only [Obj.step, Obj.move] at e
    split at e
    · rename_i p hx hy
      split at e
      · cases e
      · cases e
        exact h.transfer hx (fun q hq => by rw [hy] at hq; cases hq) ‹_›
    · cases e
  | assign y x =>
    simp only [Obj.step, Obj.assign] at e
    split at e
    · rename_i p q hx hy
      split at e
      · cases e
      · rename_i hxy
        split at e
        · split at e
          · rename_i hs
            cases e
            exact h.transfer hx (fun r hr => by
              rw [hy] at hr; cases hr
              cases ht : q.threads with
              | nil => rfl
              | cons t _ => have := (h.own y q hy t (by rw [ht]; exact List.mem_cons_self)).1; rw [hs] at this; cases this) hxy
          · rename_i m hs
            rw [shut_ok h hy hs] at e
            dsimp only at e
            cases e
            have h1 := h.shut hy hs (some empty) (.inr rfl)
            have h2 := h1.transfer (x := x) (y := y) (p := p) (by dsimp only; rw [set_ne _ _ (Ne.symm hxy)]; exact hx)
              (fun r hr => by dsimp only at hr; rw [set_same] at hr; cases hr; rfl) hxy
            have : set (set (set w.objs y (some empty)) x (some empty)) y (some p) = set (set w.objs x (some empty)) y (some p) := by
              funext z; simp only [set]; split
              · rfl
              · split <;> rfl
            dsimp only at h2
            rw [this] at h2; exact h2
        · split at e
          · cases e
          · rename_i hn
            cases e
            exact h.transfer hx (fun r hr => by rw [hy] at hr; cases hr; simpa using hn) hxy
    · cases e
  | schedule x i =>
    simp only [Obj.step, Obj.schedule] at e
    split at e
    · cases e
    · split at e
      · cases e; exact h
      · cases e
  | destroy x =>
    simp only [Obj.step, Obj.destroy] at e
    split at e
    · cases e
    · rename_i p hx
      split at e
      · rename_i hs
        cases e
        refine h.drop none (.inl rfl) fun r hr => ?_
        rw [hx] at hr; cases hr
        cases ht : p.threads with
        | nil => rfl
        | cons t _ => have := (h.own x p hx t (by rw [ht]; exact List.mem_cons_self)).1; rw [hs.2] at this; cases this
      · cases hs : p.share with
        | none => simp [Obj.shut, hs] at e
        | some m =>
          rw [shut_ok h hx hs] at e
          dsimp only at e
          cases e
          exact h.shut hx hs none (.inl rfl)

theorem Inv.runs {fixed : Bool} {os : List Op} {w w' : World} (h : Inv w) (e : Obj.run fixed w os = .ok w') : Inv w' := by
  induction os generalizing w with
  | nil => simp only [Obj.run] at e; cases e; exact h
  | cons o os ih =>
    simp only [Obj.run] at e
    split at e
    · rename_i w1 e1
      exact ih (h.step e1) e
    · rename_i hn
      exact absurd e (by intro h; exact hn _ h)

/-! ### The threads belong to the pools that are alive -/

/-- After any operations at all, the threads that run are those of the objects alive, none of them has been told to stop, and no
thread belongs to two objects. -/
theorem threads_follow {fixed : Bool} {os : List Op} {w : World} (e : run fixed .init os = .ok w) :
    (∀ t, t ∈ w.running ↔ ∃ x p, w.objs x = some p ∧ t ∈ p.threads) ∧ (∀ t, t ∈ w.running → w.stopped (w.sees t) = false) ∧
    ∀ x y p q t, w.objs x = some p → w.objs y = some q → t ∈ p.threads → t ∈ q.threads → x = y := by
  have h := Inv.init.runs e
  refine ⟨h.run, fun t ht => ?_, h.disj⟩
  obtain ⟨x, p, hx, ht⟩ := (h.run t).1 ht
  exact (h.share x p _ hx (h.own x p hx t ht).1).2

/-- When all objects have been destroyed no thread is left. -/
theorem all_joined {fixed : Bool} {os : List Op} {w : World} (e : run fixed .init os = .ok w) (h : ∀ x, w.objs x = none) : w.running = [] := by
  apply List.eq_nil_iff_forall_not_mem.2
  intro t ht
  obtain ⟨x, p, hx, _⟩ := ((threads_follow e).1 t).1 ht
  rw [h x] at hx; cases hx

/-! ### Legal programs -/

/-- The world is what the specification says. -/
def Rel (a : Spec.Abs) (w : World) : Prop :=
  ∀ x, match a x with
    | none => w.objs x = none
    | some v => ∃ p, w.objs x = some p ∧ p.workers = v ∧ p.threads.length = v ∧ (p.share = none ↔ v = 0)

theorem Rel.dead {a : Spec.Abs} {w : World} (h : Rel a w) {x : Nat} (e : a x = none) : w.objs x = none := by
  have := h x; rw [e] at this; exact this

theorem Rel.alive {a : Spec.Abs} {w : World} (h : Rel a w) {x v : Nat} (e : a x = some v) :
    ∃ p, w.objs x = some p ∧ p.workers = v ∧ p.threads.length = v ∧ (p.share = none ↔ v = 0) := by
  have := h x; rw [e] at this; exact this

theorem Rel.set {a : Spec.Abs} {w w' : World} (h : Rel a w) {x : Nat} {v : Option Nat} {p : Option Pool} (ho : w'.objs = set w.objs x p)
    (hv : match v with
      | none => p = none
      | some v => ∃ q, p = some q ∧ q.workers = v ∧ q.threads.length = v ∧ (q.share = none ↔ v = 0)) : Rel (Spec.set a x v) w' := by
  intro y
  rw [ho]
  by_cases e : y = x
  · subst e
    rw [set_same, show Spec.set a y v y = v from by simp [Spec.set]]
    exact hv
  · rw [set_ne _ _ e, show Spec.set a x v y = a y from by simp [Spec.set, e]]
    exact h y

theorem Rel.set2 {a : Spec.Abs} {w w' : World} (h : Rel a w) {x y v : Nat} {p : Pool} (ho : w'.objs = Obj.set (Obj.set w.objs x (some empty)) y (some p))
    (hp : p.workers = v ∧ p.threads.length = v ∧ (p.share = none ↔ v = 0)) : Rel (Spec.set (Spec.set a x (some 0)) y (some v)) w' :=
  Rel.set (w := { w with objs := Obj.set w.objs x (some empty) }) (Rel.set (v := some 0) h rfl ⟨empty, rfl, rfl, rfl, by simp [empty]⟩) ho ⟨p, rfl, hp⟩

/-- One legal operation: with the code as it is, a move or a late failure may go wrong. -/
theorem legal_step {a b : Spec.Abs} {w : World} {o : Op} (i : Inv w) (r : Rel a w) (l : Spec.Legal a o b) (fixed : Bool) :
    (∃ w', step fixed w o = .ok w' ∧ Rel b w') ∨
    (fixed = false ∧ (step fixed w o = .ub ∧ (∃ x, o = .destroy x ∧ a x = some 0) ∨ step fixed w o = .term ∧ (isMove o ∨ isLate o))) := by
  cases l with
  | @make k x n hx hn =>
    left
    have ho := r.dead hx
    refine ⟨_, by simp only [step, Obj.make, ho]; rw [if_neg (by simp), if_neg (by omega), if_neg (by simp), if_neg (by simp)], ?_⟩
    refine Rel.set r rfl ⟨_, rfl, rfl, by simp, by simp; omega⟩
  | @fails k x n f hx hn hf =>
    have ho := r.dead hx
    rcases hf with rfl | rfl
    · left; exact ⟨w, by simp [step, Obj.make, ho], r⟩
    · cases fixed
      · right
        refine ⟨rfl, .inr ⟨?_, .inr rfl⟩⟩
        simp only [step, Obj.make, ho]
        rw [if_neg (by simp), if_neg (by omega), if_neg (by simp), if_pos ⟨trivial, by omega⟩]; rfl
      · left
        refine ⟨w, ?_, r⟩
        simp only [step, Obj.make, ho]
        rw [if_neg (by simp), if_neg (by omega), if_neg (by simp), if_pos ⟨trivial, by omega⟩]; rfl
  | @move y x v hx hy =>
    left
    obtain ⟨p, hp, h⟩ := r.alive hx
    have ho := r.dead hy
    have hxy : y ≠ x := by rintro rfl; rw [hx] at hy; cases hy
    exact ⟨_, by simp only [step, Obj.move, hp, ho]; rw [if_neg hxy], r.set2 rfl h⟩
  | @assign y x v u hx hy hxy =>
    obtain ⟨p, hp, h⟩ := r.alive hx
    obtain ⟨q, hq, h'⟩ := r.alive hy
    cases fixed
    · by_cases e : q.threads = []
      · left
        exact ⟨_, by simp only [step, Obj.assign, hp, hq]; rw [if_neg hxy, if_neg (by simp), if_neg (by simp [e])], r.set2 rfl h⟩
      · right
        exact ⟨rfl, .inr ⟨by simp only [step, Obj.assign, hp, hq]; rw [if_neg hxy, if_neg (by simp), if_pos e], .inl rfl⟩⟩
    · left
      cases hs : q.share with
      | none => exact ⟨_, by simp only [step, Obj.assign, hp, hq, hs]; rw [if_neg hxy, if_pos trivial], r.set2 rfl h⟩
      | some m =>
        refine ⟨_, by simp only [step, Obj.assign, hp, hq, hs]; rw [if_neg hxy, if_pos trivial, shut_ok i hq hs], r.set2 rfl h⟩
  | @schedule x j v hx hj =>
    left
    obtain ⟨p, hp, h1, -⟩ := r.alive hx
    exact ⟨w, by simp only [step, Obj.schedule, hp]; rw [if_pos (by omega)], r⟩
  | @destroy x v hx =>
    obtain ⟨p, hp, h1, h2, h3⟩ := r.alive hx
    cases hs : p.share with
    | none =>
      cases fixed
      · right
        refine ⟨rfl, .inl ⟨by simp [step, Obj.destroy, hp, Obj.shut, hs], x, rfl, ?_⟩⟩
        rw [hx, h3.1 hs]
      · left
        exact ⟨_, by simp only [step, Obj.destroy, hp, hs]; rw [if_pos ⟨trivial, trivial⟩], Rel.set r rfl rfl⟩
    | some m =>
      left
      exact ⟨_, by simp only [step, Obj.destroy, hp]; rw [if_neg (by simp [hs]), shut_ok i hp hs], Rel.set r rfl rfl⟩

theorem Rel.init : Rel (fun _ => none) .init := fun _ => rfl

/-- The repaired version runs every legal program. -/
theorem fixed_runs {a b : Spec.Abs} {os : List Op} {w : World} (i : Inv w) (r : Rel a w) (l : Spec.Prog a os b) :
    ∃ w', run true w os = .ok w' ∧ Rel b w' := by
  induction l generalizing w with
  | nil => exact ⟨w, rfl, r⟩
  | cons l _ ih =>
    rcases legal_step i r l true with ⟨w1, e1, r1⟩ | ⟨e, -⟩
    · obtain ⟨w', e, r'⟩ := ih (i.step e1) r1
      exact ⟨w', by simp only [run, e1]; exact e, r'⟩
    · cases e

theorem pools_movable_if_fixed {os : List Op} {b : Spec.Abs} (l : Spec.Prog (fun _ => none) os b) : ∃ w, run true .init os = .ok w ∧ Rel b w :=
  fixed_runs .init .init l

/-- No object has been moved from. -/
def Full (a : Spec.Abs) : Prop := ∀ x, a x ≠ some 0

theorem code_runs {a b : Spec.Abs} {os : List Op} {w : World} (i : Inv w) (r : Rel a w) (f : Full a) (l : Spec.Prog a os b)
    (hn : ∀ o, o ∈ os → isMove o = false ∧ isLate o = false) : ∃ w', run false w os = .ok w' ∧ Rel b w' := by
  induction l generalizing w with
  | nil => exact ⟨w, rfl, r⟩
  | @cons a b c o os l _ ih =>
    have hno := hn o List.mem_cons_self
    rcases legal_step i r l false with ⟨w1, e1, r1⟩ | ⟨_, ⟨_, x, _, hx⟩ | ⟨_, h⟩⟩
    · have fb : Full b := by
        cases l with
        | @make k x n hx h0 =>
          intro y
          by_cases e : y = x
          · subst e; simp [Spec.set]; omega
          · simp only [Spec.set, if_neg e]; exact f y
        | fails _ _ _ => exact f
        | move _ _ => exact absurd hno.1 (by simp [isMove])
        | assign _ _ _ => exact absurd hno.1 (by simp [isMove])
        | schedule _ _ => exact f
        | @destroy x v hx =>
          intro y
          by_cases e : y = x
          · subst e; simp [Spec.set]
          · simp only [Spec.set, if_neg e]; exact f y
      obtain ⟨w', e, r'⟩ := ih (i.step e1) r1 fb (fun o ho => hn o (List.mem_cons_of_mem _ ho))
      exact ⟨w', by simp only [run, e1]; exact e, r'⟩
    · exact absurd hx (f x)
    · rw [hno.1, hno.2] at h; simp at h

/-- Partial: with the code as it is, every legal program runs if it does not move pools and no constructor fails late. Missing:
moves and late failures (see `moves_doomed`, `late_failure_terminates`). -/
theorem pools_movable_partial {os : List Op} {b : Spec.Abs} (l : Spec.Prog (fun _ => none) os b)
    (hn : ∀ o, o ∈ os → isMove o = false ∧ isLate o = false) : ∃ w, run false .init os = .ok w ∧ Rel b w :=
  code_runs .init .init (fun _ => nofun) l hn

/-! ### What goes wrong -/

/-- Some object has been moved from. -/
def HasNull (w : World) : Prop := ∃ x p, w.objs x = some p ∧ p.share = none

theorem HasNull.move {w : World} (x y : Nat) (p : Pool) (hxy : y ≠ x) : HasNull { w with objs := set (set w.objs x (some empty)) y (some p) } :=
  ⟨x, empty, by dsimp only; rw [set_ne _ _ (Ne.symm hxy), set_same], rfl⟩

theorem step_null {w w' : World} {o : Op} (e : step false w o = .ok w') (h : HasNull w ∨ isMove o) : HasNull w' := by
  cases o with
  | make k x n f =>
    obtain ⟨z, q, hz, hq⟩ : HasNull w := by
      rcases h with h | h
      · exact h
      · cases h
    simp only [step, Obj.make] at e
    split at e
    · cases e
    · rename_i hx
      split at e
      · cases e; exact ⟨z, q, hz, hq⟩
      · split at e
        · cases e
        · split at e
          · cases e
          · split at e
            · simp at e
            · cases e
              exact ⟨z, q, (by dsimp only; rw [set_ne]; exact hz; rintro rfl; rw [hx] at hz; cases hz), hq⟩
  | move y x =>
    simp only [step, Obj.move] at e
    split at e
    · split at e
      · cases e
      · cases e; exact HasNull.move x y _ ‹_›
    · cases e
  | assign y x =>
    simp only [step, Obj.assign] at e
    split at e
    · split at e
      · cases e
      · rw [if_neg (by simp)] at e
        split at e
        · cases e
        · cases e; exact HasNull.move x y _ ‹_›
    · cases e
  | schedule x i =>
    have hw : HasNull w := by
      rcases h with h | h
      · exact h
      · cases h
    simp only [step, Obj.schedule] at e
    split at e
    · cases e
    · split at e
      · cases e; exact hw
      · cases e
  | destroy x =>
    obtain ⟨z, q, hz, hq⟩ : HasNull w := by
      rcases h with h | h
      · exact h
      · cases h
    simp only [step, Obj.destroy] at e
    split at e
    · cases e
    · rename_i p hx
      rw [if_neg (by simp)] at e
      unfold shut at e
      cases hs : p.share with
      | none => simp [hs] at e
      | some m =>
        simp only [hs] at e
        have hzx : z ≠ x := by rintro rfl; rw [hx] at hz; cases hz; rw [hs] at hq; cases hq
        split at e
        · rename_i w1 e1
          split at e1
          · cases e1; cases e
            exact ⟨z, q, by dsimp only; rw [set_ne _ _ hzx]; exact hz, hq⟩
          · cases e1
        · rename_i hno
          exact absurd e (by intro h; rw [h] at hno; exact hno _ rfl)

theorem run_null {os : List Op} {w w' : World} (e : run false w os = .ok w') (h : HasNull w ∨ ∃ o, o ∈ os ∧ isMove o) : HasNull w' := by
  induction os generalizing w with
  | nil =>
    cases e
    rcases h with h | ⟨o, ho, _⟩
    · exact h
    · cases ho
  | cons o os ih =>
    simp only [run] at e
    split at e
    · rename_i w1 e1
      refine ih e ?_
      rcases h with h | ⟨o', ho, hm⟩
      · exact .inl (step_null e1 (.inl h))
      · rcases List.mem_cons.1 ho with rfl | ho
        · exact .inl (step_null e1 (.inr hm))
        · exact .inr ⟨o', ho, hm⟩
    · rename_i hn
      exact absurd e (by intro h; exact hn _ h)

/-- No program that moves a pool ends properly: after a move there always is an object whose destructor dereferences null, and
every object has to be destroyed. -/
theorem moves_doomed {os : List Op} {w : World} (e : run false .init os = .ok w) (h : ∀ x, w.objs x = none) : ∀ o, o ∈ os → isMove o = false := by
  intro o ho
  cases hm : isMove o with
  | false => rfl
  | true =>
    obtain ⟨x, p, hx, -⟩ := run_null e (.inr ⟨o, ho, hm⟩)
    rw [h x] at hx; cases hx

/-- The destructor of an object that has been moved from. -/
theorem moved_from_ub (w w' : World) (x y : Nat) (e : step false w (.move y x) = .ok w') : step false w' (.destroy x) = .ub := by
  simp only [step, Obj.move] at e
  split at e
  · split at e
    · cases e
    · rename_i hxy
      cases e
      have : set (set w.objs x (some empty)) y (some ‹Pool›) x = some empty := by rw [set_ne _ _ (Ne.symm hxy), set_same]
      simp only [step, Obj.destroy, this]
      rw [if_neg (by simp)]; rfl
  · cases e

/-- Assignment to a pool with workers. -/
theorem assign_terminates (w : World) (x y : Nat) (p q : Pool) (hx : w.objs x = some p) (hy : w.objs y = some q) (hq : q.threads ≠ []) (hxy : y ≠ x) :
    step false w (.assign y x) = .term := by
  simp only [step, Obj.assign, hx, hy]
  rw [if_neg hxy, if_neg (by simp), if_pos hq]

/-- A constructor that runs out of memory after the threads have been started does not throw: the program terminates. -/
theorem late_failure_terminates (w : World) (k : Kind) (x n : Nat) (hx : w.objs x = none) (hn : 0 < n) :
    step false w (.make k x n .contexts) = .term := by
  simp only [step, Obj.make, hx]
  rw [if_neg (by simp), if_neg (by omega), if_neg (by simp), if_pos ⟨trivial, by omega⟩]; rfl

/-- `lazy_pool(0)`, and `schedule` of `busy_pool(0)`, whatever index is drawn. -/
theorem zero_workers_ub (w : World) (x i : Nat) (hx : w.objs x = none) :
    step false w (.make .lazy x 0 .none) = .ub ∧ ∃ w', step false w (.make .busy x 0 .none) = .ok w' ∧ step false w' (.schedule x i) = .ub := by
  constructor
  · simp [step, Obj.make, hx]
  · refine ⟨_, by simp only [step, Obj.make, hx]; rw [if_neg (by simp), if_neg (by simp), if_neg (by simp), if_neg (by simp)], ?_⟩
    simp only [step, Obj.schedule, set_same]
    rw [if_neg (by omega)]

/-- A legal program with a move; the code as it is goes wrong, the repaired version does not, and another legal program without moves. -/
example : (∃ b, Spec.Prog (fun _ => none) [.make .lazy 0 4 .none, .move 1 0, .schedule 1 3, .destroy 1, .destroy 0] b) ∧
    run false .init [.make .lazy 0 4 .none, .move 1 0, .schedule 1 3, .destroy 1, .destroy 0] = .ub ∧
    (∃ w, run true .init [.make .lazy 0 4 .none, .move 1 0, .schedule 1 3, .destroy 1, .destroy 0] = .ok w ∧ w.running = []) ∧
    ∃ w, run false .init [.make .lazy 0 4 .none, .make .busy 1 2 .none, .schedule 0 3, .destroy 0] = .ok w ∧ w.running = [4, 5] := by
  refine ⟨⟨_, .cons (.make rfl (by decide)) (.cons (.move rfl rfl) (.cons (.schedule rfl (by decide)) (.cons (.destroy rfl) (.cons (.destroy rfl) .nil))))⟩,
    rfl, ⟨_, rfl, by decide +kernel⟩, ⟨_, rfl, by decide +kernel⟩⟩

end Verif.Pool.Obj
