import Verif.Mem.Commute2

/-! Any execution without races can be put into serial order. -/
namespace Verif.Mem
open Verif.Exn (errs oks)

variable {σ V E L : Type} [DecidableEq L]
variable {body : σ → Act σ V E L} {may : E → Prop} {ok : (σ → Prop) → σ → Prop} {m : L → E} {pend : σ → Nat} {dirty : σ → Prop}

/-- An execution of some length. -/
inductive Tr (body : σ → Act σ V E L) (may : E → Prop) (ok : (σ → Prop) → σ → Prop) : FJ σ V E L → Nat → FJ σ V E L → Prop
  | nil (a) : Tr body may ok a 0 a
  | step {a b z n} (f : Nat) : FJ.Step body may f a b → Tr body may ok b n z → Tr body may ok a (n + 1) z
  | submit {a z n} (i : Nat) (c : σ) : ok a.open c → a.mode i = .none → Tr body may ok (a.submit i c) n z → Tr body may ok a (n + 1) z

theorem Tr.snoc_step {a z z' : FJ σ V E L} {n : Nat} (h : Tr body may ok a n z) {f : Nat} (hs : FJ.Step body may f z z') : Tr body may ok a (n + 1) z' := by
  induction h with
  | nil a => exact .step f hs (.nil _)
  | step g h1 _ ih => exact .step g h1 (ih hs)
  | submit i c h1 h2 _ ih => exact .submit i c h1 h2 (ih hs)

theorem Tr.snoc_submit {a z : FJ σ V E L} {n : Nat} (h : Tr body may ok a n z) {i : Nat} {c : σ} (h1 : ok z.open c) (h2 : z.mode i = .none) :
    Tr body may ok a (n + 1) (z.submit i c) := by
  induction h with
  | nil a => exact .submit i c h1 h2 (.nil _)
  | step g h3 _ ih => exact .step g h3 (ih h1 h2)
  | submit j d h3 h4 _ ih => exact .submit j d h3 h4 (ih h1 h2)

theorem tr_of_reach {a : FJ σ V E L} (h : FJ.Reach body may ok m a) : ∃ y n, Tr body may ok (FJ.start y m) n a := by
  induction h with
  | start y => exact ⟨y, 0, .nil _⟩
  | submit i c _ h1 h2 ih => obtain ⟨y, n, h⟩ := ih; exact ⟨y, n + 1, h.snoc_submit h1 h2⟩
  | step f _ hs ih => obtain ⟨y, n, h⟩ := ih; exact ⟨y, n + 1, h.snoc_step hs⟩

theorem step_same {f : Nat} {a b : FJ σ V E L} (h : FJ.Step body may f a b) (x : List (Acc E L)) :
    ∃ x', FJ.Step body may f { a with hist := x } { b with hist := x' } := by
  obtain ⟨u, hu⟩ := view h
  refine ⟨u.acc ++ x, ?_⟩
  have := hu.again { a with hist := x } ⟨rfl, rfl, rfl, rfl, fun _ _ _ h => h, hu.new, fun _ _ => rfl⟩
  rw [hu.eq]
  have e : u.app f { a with hist := x } = { u.app f a with hist := u.acc ++ x } := by
    unfold U.app U.base
    rcases u.new with _ | ⟨n, c⟩ <;> rfl
  rw [← e]; exact this

theorem Tr.same {a z : FJ σ V E L} {n : Nat} (h : Tr body may ok a n z) : ∀ {a'}, Same a a' → ∃ z', Tr body may ok a' n z' ∧ Same z z' := by
  induction h with
  | nil a => intro a' hs; exact ⟨a', .nil _, hs⟩
  | step f h1 _ ih =>
    rintro a' ⟨x, rfl⟩
    obtain ⟨x', h2⟩ := step_same h1 x
    obtain ⟨z', h3, h4⟩ := ih ⟨x', rfl⟩
    exact ⟨z', .step f h2 h3, h4⟩
  | @submit a z n i c h1 h2 _ ih =>
    rintro a' ⟨x, rfl⟩
    obtain ⟨z', h3, h4⟩ := ih (a' := ({ a with hist := x } : FJ σ V E L).submit i c) ⟨x, rfl⟩
    exact ⟨z', .submit i c h1 h2 h3, h4⟩

theorem step_ended {f g : Nat} {a b : FJ σ V E L} (h : FJ.Step body may f a b) {r : Except E V} (hg : a.mode g = .ended r) : b.mode g = .ended r := by
  obtain ⟨u, hu⟩ := view h; exact hu.ended hg

theorem submit_mode {a : FJ σ V E L} {i g : Nat} {c : σ} (h2 : a.mode i = .none) (hg : a.mode g ≠ .none) :
    (a.submit i c).mode g = a.mode g := set_ne _ _ (by rintro rfl; exact hg h2)

theorem Tr.ended {a z : FJ σ V E L} {n : Nat} (h : Tr body may ok a n z) {g : Nat} {r : Except E V} (hg : a.mode g = .ended r) : z.mode g = .ended r := by
  induction h with
  | nil a => exact hg
  | step f h1 _ ih => exact ih (step_ended h1 hg)
  | submit i c h1 h2 _ ih => exact ih (by rw [submit_mode h2 (by rw [hg]; simp)]; exact hg)

/-- What may be submitted when others are running may be submitted when they are not. -/
def Mono (ok : (σ → Prop) → σ → Prop) : Prop := ∀ O O' : σ → Prop, (∀ c, O' c → O c) → ∀ c, ok O c → ok O' c

theorem open_less {f : Nat} {a b : FJ σ V E L} (h : FJ.Step body may f a b) (c : σ) (hc : b.open c) : a.open c := by
  obtain ⟨g, h1, h2⟩ := hc
  have hr : b.roots = a.roots := by obtain ⟨u, hu⟩ := view h; rw [hu.eq]; rfl
  rw [hr] at h1
  exact ⟨g, h1, fun r hr => h2 r (step_ended h hr)⟩

/-- A task can step before another is submitted. -/
theorem commute_submit {f i : Nat} {c : σ} {a b : FJ σ V E L} (hi : a.mode i = .none) (hl : a.mode f ≠ .none)
    (hf : FJ.Step body may f (a.submit i c) b) (hw : ∀ n, Waits a f n → ∃ r, a.mode n = .ended r) :
    ∃ b', FJ.Step body may f a b' ∧ b'.mode i = .none ∧ b = b'.submit i c := by
  obtain ⟨u, hu⟩ := view hf
  have hne : f ≠ i := by rintro rfl; exact hl hi
  have emode : (a.submit i c).mode f = a.mode f := submit_mode hi hl
  have ekids : (a.submit i c).kids f = a.kids f := set_ne _ _ hne
  have hun : ∀ n d, u.new = some (n, d) → n ≠ i := by
    rintro n d hn rfl
    have := hu.new n d hn
    rw [show (a.submit n c).mode n = .run from set_same _ _ _] at this; cases this
  have hst := hu.again a ⟨(set_ne _ _ hne).symm, emode.symm, ekids.symm, (set_ne _ _ hne).symm, ?_, ?_, fun _ _ => rfl⟩
  · refine ⟨_, hst, ?_, ?_⟩
    · rw [app_mode ⟨hne.symm, fun n d hn => (hun n d hn).symm⟩]; exact hi
    · rw [hu.eq]
      unfold U.app U.base FJ.submit FJ.new
      rcases hn : u.new with _ | ⟨n, d⟩
      · simp only [set_comm _ _ _ hne]
      · have := hun n d hn
        simp only [set_comm _ _ _ hne, set_comm _ _ _ this]
  · intro n hwn r hr
    have hwn : Waits a f n := by unfold Waits at hwn ⊢; rw [emode, ekids] at hwn; exact hwn
    obtain ⟨r0, h0⟩ := hw n hwn
    rw [submit_mode hi (by rw [h0]; simp)] at hr
    exact hr
  · intro n d hn
    have := hu.new n d hn
    rw [show (a.submit i c).mode n = a.mode n from set_ne _ _ (hun n d hn)] at this
    exact this

/-- A task that is ready can step at once. -/
theorem front (hmono : Mono ok) (hrf : RaceFree body may ok m) {a z : FJ σ V E L} {n : Nat} (h : Tr body may ok a n z) (ha : FJ.Reach body may ok m a)
    {f : Nat} (hl : a.mode f ≠ .none) (hw : ∀ n, Waits a f n → ∃ r, a.mode n = .ended r) (hne : ∀ r, a.mode f ≠ .ended r)
    (hz : ∃ r, z.mode f = .ended r) : ∃ b z' k, n = k + 1 ∧ FJ.Step body may f a b ∧ Tr body may ok b k z' ∧ Same z z' := by
  induction h with
  | nil a => obtain ⟨r, hr⟩ := hz; exact absurd hr (hne r)
  | @step a b z n g h1 h2 ih =>
    by_cases e : g = f
    · subst e; exact ⟨b, z, n, rfl, h1, h2, .refl z⟩
    · obtain ⟨ug, hg⟩ := view h1
      have ho := hg.other (Ne.symm e) hl
      have emode : b.mode f = a.mode f := by rw [hg.eq]; exact app_mode ho
      have ekids : b.kids f = a.kids f := by rw [hg.eq]; exact app_kids ho
      obtain ⟨c, z', k, rfl, h3, h4, h5⟩ := ih (.step g ha h1) (by rw [emode]; exact hl)
        (by
          intro n hn
          unfold Waits at hn
          rw [emode, ekids] at hn
          obtain ⟨r, hr⟩ := hw n hn
          exact ⟨r, hg.ended hr⟩)
        (by rw [emode]; exact hne) hz
      obtain ⟨uf, hf⟩ := view h3
      obtain ⟨b', c', h6, h7, h8⟩ := commute hg hf (Ne.symm e) hw hl (hrf a ha)
      obtain ⟨z'', h9, h10⟩ := h4.same h8
      exact ⟨b', z'', k + 1, rfl, h6, .step g h7 h9, h5.trans h10⟩
  | @submit a z n i c h1 h2 h3 ih =>
    have emode : (a.submit i c).mode f = a.mode f := submit_mode h2 hl
    have ekids : (a.submit i c).kids f = a.kids f := set_ne _ _ (by rintro rfl; exact hl h2)
    obtain ⟨b, z', k, rfl, h4, h5, h6⟩ := ih (.submit i c ha h1 h2) (by rw [emode]; exact hl)
      (by
        intro n hn
        unfold Waits at hn
        rw [emode, ekids] at hn
        obtain ⟨r, hr⟩ := hw n hn
        exact ⟨r, by rw [submit_mode h2 (by rw [hr]; simp)]; exact hr⟩)
      (by rw [emode]; exact hne) hz
    obtain ⟨b', h7, h8, rfl⟩ := commute_submit h2 hl h4 hw
    exact ⟨b', z', k + 1, rfl, h7, .submit i c (hmono _ _ (open_less h7) c h1) h8 h5, h6⟩

/-- How many children a task has forked since its last join. -/
def PInv (pend : σ → Nat) (a : FJ σ V E L) : Prop := ∀ f,
  match a.mode f with
  | .none => a.kids f = []
  | .run => (a.kids f).length = pend (a.st f)
  | .called _ => (a.kids f).length = pend (a.st f)
  | .forked _ => (a.kids f).length = pend (a.st f) + 1
  | .ended _ => a.kids f = []

end Verif.Mem
