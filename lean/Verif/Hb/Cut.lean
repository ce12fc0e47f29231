import Verif.Mem.Serial

/-!
An execution of the fork/join machine without the steps that come after a certain access: the task that is about to make it stays where it is, and so do all tasks that wait
for what comes after.
-/
namespace Verif.Hb
open Verif.Mem
open Verif.Exn (errs oks)
variable {σ V E L : Type}

/-- `b` is `a` without what comes after an access of task `fe`, which is in the state `ye`; the tasks `U` have not seen it, nor have the locations `C`. -/
structure Cut (U : Nat → Prop) (C : L → Prop) (fe : Nat) (ye : σ) (a b : FJ σ V E L) : Prop where
  un : ∀ f, U f → b.st f = a.st f ∧ b.mode f = a.mode f ∧ b.kids f = a.kids f ∧ b.threw f = a.threw f
  ex : ∀ f, U f → a.mode f ≠ .none
  none : ∀ f, a.mode f = .none → b.mode f = .none
  mem : ∀ l, C l → b.m l = a.m l
  rts : ∀ f c, (f, c) ∈ b.roots → (f, c) ∈ a.roots
  fz : ¬ U fe ∧ b.mode fe = .run ∧ b.st fe = ye

theorem set_same {α : Type} (f : Nat → α) (i : Nat) (a : α) : Mem.set f i a i = a := by simp [Mem.set]
theorem set_ne {α : Type} (f : Nat → α) {i j : Nat} (a : α) (h : j ≠ i) : Mem.set f i a j = f j := by simp [Mem.set, h]

variable [DecidableEq L] {body : σ → Act σ V E L} {may : E → Prop}

/-- A step changes nothing about other tasks. -/
theorem step_others {a a' : FJ σ V E L} {f : Nat} (st : FJ.Step body may f a a') {g : Nat} (hg : g ≠ f) (he : a.mode g ≠ .none) :
    a'.st g = a.st g ∧ a'.mode g = a.mode g ∧ a'.kids g = a.kids g ∧ a'.threw g = a.threw g := by
  cases st with
  | fork n c k x h1 h2 h3 =>
    have hn : g ≠ n := by rintro rfl; exact he h3
    simp only [FJ.new, set_ne _ _ hg, set_ne _ _ hn, and_self]
  | call n c k x h1 h2 h3 =>
    have hn : g ≠ n := by rintro rfl; exact he h3
    simp only [FJ.new, set_ne _ _ hg, set_ne _ _ hn, and_self]
  | _ => simp only [FJ.on, set_ne _ _ hg, and_self]

theorem step_roots {a a' : FJ σ V E L} {f : Nat} (st : FJ.Step body may f a a') : a'.roots = a.roots := by cases st <;> rfl

theorem step_run {a a' : FJ σ V E L} {f : Nat} (st : FJ.Step body may f a a') : a.mode f ≠ .none := by
  cases st <;> simp_all

theorem step_none {a a' : FJ σ V E L} {f : Nat} (st : FJ.Step body may f a a') {g : Nat} (hg : a'.mode g = .none) : a.mode g = .none := by
  by_cases h : a.mode g = .none
  · exact h
  · exfalso
    by_cases e : g = f
    · subst e
      cases st <;> simp [FJ.on, FJ.new, set_same] at hg
    · exact h (by rw [← (step_others st e h).2.1]; exact hg)

section
variable {U U' : Nat → Prop} {C C' : L → Prop} {fe : Nat} {ye : σ} {a a' b : FJ σ V E L} {f : Nat}

/-- A step that comes after it is left out. -/
theorem Cut.skip (h : Cut U C fe ye a b) (st : FJ.Step body may f a a') (hU : ∀ g, U' g → U g ∧ g ≠ f) (hC : ∀ l, C' l → C l ∧ a'.m l = a.m l) : Cut U' C' fe ye a' b := by
  have ho : ∀ g, U' g → _ := fun g hg => step_others st (hU g hg).2 (h.ex g (hU g hg).1)
  refine ⟨fun g hg => ?_, fun g hg => ?_, fun g hg => h.none g (step_none st hg), fun l hl => by rw [(hC l hl).2]; exact h.mem l (hC l hl).1, fun g c hc => by rw [step_roots st]; exact h.rts g c hc,
    fun hu => h.fz.1 (hU fe hu).1, h.fz.2⟩
  · obtain ⟨h1, h2, h3, h4⟩ := ho g hg
    rw [h1, h2, h3, h4]
    exact h.un g (hU g hg).1
  · rw [(ho g hg).2.1]
    exact h.ex g (hU g hg).1

theorem ended_of {mode mode' : Nat → Mode V E} {ks : List Nat} {rs : List (Except E V)} (h : Ended mode ks rs) (hm : ∀ c ∈ ks, mode' c = mode c) : Ended mode' ks rs := by
  induction h with
  | nil => exact .nil
  | cons h1 _ ih => exact .cons (by rw [hm _ (List.mem_cons_self ..)]; exact h1) (ih fun c hc => hm c (List.mem_cons_of_mem _ hc))

/-- Both have taken the step. -/
theorem Cut.both {b' : FJ σ V E L} (h : Cut U C fe ye a b) (st : FJ.Step body may f a a') (st' : FJ.Step body may f b b') (hf : U f)
    (hU : ∀ g, U' g → U g ∨ (a.mode g = .none ∧ a'.mode g ≠ .none)) (hC : ∀ l, C' l → C l)
    (he : b'.st f = a'.st f ∧ b'.mode f = a'.mode f ∧ b'.kids f = a'.kids f ∧ b'.threw f = a'.threw f)
    (hn : ∀ g, a.mode g = .none → a'.mode g ≠ .none → b'.st g = a'.st g ∧ b'.mode g = a'.mode g ∧ b'.kids g = a'.kids g ∧ b'.threw g = a'.threw g)
    (hb : ∀ g, a'.mode g = .none → b'.mode g = .none) (hm : ∀ l, b.m l = a.m l → b'.m l = a'.m l) : Cut U' C' fe ye a' b' := by
  have hfe : fe ≠ f := by rintro rfl; exact h.fz.1 hf
  have hbe : b.mode fe ≠ .none := by rw [h.fz.2.1]; simp
  obtain ⟨f1, f2, _, _⟩ := step_others st' hfe hbe
  refine ⟨fun g hg => ?_, fun g hg => ?_, hb, fun l hl => hm l (h.mem l (hC l hl)), fun g c hc => ?_, fun hu => ?_, by rw [f2]; exact h.fz.2.1, by rw [f1]; exact h.fz.2.2⟩
  · rcases hU g hg with hg | ⟨h1, h2⟩
    · by_cases e : g = f
      · subst e; exact he
      · obtain ⟨u1, u2, u3, u4⟩ := h.un g hg
        have hx := h.ex g hg
        obtain ⟨q1, q2, q3, q4⟩ := step_others st e hx
        obtain ⟨r1, r2, r3, r4⟩ := step_others st' e (by rw [u2]; exact hx)
        rw [q1, q2, q3, q4, r1, r2, r3, r4]
        exact ⟨u1, u2, u3, u4⟩
    · exact hn g h1 h2
  · rcases hU g hg with hg | ⟨h1, h2⟩
    · exact fun e => h.ex g hg (step_none st e)
    · exact h2
  · rw [step_roots st]
    rw [step_roots st'] at hc
    exact h.rts g c hc
  · rcases hU fe hu with h1 | ⟨h1, _⟩
    · exact h.fz.1 h1
    · exact hbe (h.none fe h1)

/-- A step that does not come after it can be taken. -/
theorem Cut.go (h : Cut U C fe ye a b) (st : FJ.Step body may f a a') (hf : U f)
    (hU : ∀ g, U' g → U g ∨ (a.mode g = .none ∧ a'.mode g ≠ .none)) (hC : ∀ l, C' l → C l)
    (hl : ∀ l k, body (a.st f) = .load l k → C l) (hj : ∀ k x, a.mode f = .run → body (a.st f) = .join k x → ∀ c ∈ a.kids f, U c) (hc : ∀ n, a.mode f = .called n → U n)
    (hr : ∀ n c k x, a.mode f = .forked n → body (a.st f) = .fork c k x → U n ∨ a'.st f = k false) : ∃ b', FJ.Step body may f b b' ∧ Cut U' C' fe ye a' b' := by
  obtain ⟨u1, u2, u3, u4⟩ := h.un f hf
  have hx := h.ex f hf
  -- Steps that change nothing about which tasks there are.
  have plain : ∀ b', FJ.Step body may f b b' → (∀ g, g ≠ f → a'.mode g = a.mode g ∧ b'.mode g = b.mode g) → b'.st f = a'.st f → b'.mode f = a'.mode f → b'.kids f = a'.kids f → b'.threw f = a'.threw f →
      (∀ l, b.m l = a.m l → b'.m l = a'.m l) → ∃ b', FJ.Step body may f b b' ∧ Cut U' C' fe ye a' b' := by
    intro b' st' hg e1 e2 e3 e4 hm
    refine ⟨b', st', h.both st st' hf hU hC ⟨e1, e2, e3, e4⟩ (fun g h1 h2 => ?_) (fun g h1 => ?_) hm⟩
    · exfalso
      by_cases e : g = f
      · subst e; exact hx h1
      · exact h2 (by rw [(hg g e).1]; exact h1)
    · by_cases e : g = f
      · subst e; rw [e2]; exact h1
      · rw [(hg g e).2]; exact h.none g (by rw [← (hg g e).1]; exact h1)
  have sm : ∀ (md md' : Mode V E) g, g ≠ f → Mem.set a.mode f md g = a.mode g ∧ Mem.set b.mode f md' g = b.mode g := fun md md' g hg => ⟨set_ne _ _ hg, set_ne _ _ hg⟩
  cases st with
  | ret v h1 h2 =>
    exact plain _ (.ret b v (by rw [u2]; exact h1) (by rw [u1]; exact h2)) (sm _ _) u1 (by simp only [set_same]) u3 u4 fun _ h => h
  | throw v h1 h2 =>
    exact plain _ (.throw b v (by rw [u2]; exact h1) (by rw [u1]; exact h2)) (sm _ _) u1 (by simp only [set_same]) u3 u4 fun _ h => h
  | fork n c k x h1 h2 h3 =>
    have hnf : f ≠ n := by rintro rfl; exact hx h3
    have h3' := h.none n h3
    have st' := FJ.Step.fork (may := may) b n c k x (by rw [u2]; exact h1) (by rw [u1]; exact h2) h3'
    refine ⟨_, st', h.both (.fork a n c k x h1 h2 h3) st' hf hU hC ?_ (fun g q1 q2 => ?_) (fun g q => ?_) (fun _ h => h)⟩
    · simp only [FJ.new, set_same, set_ne _ _ hnf, u1, u3, u4, and_self]
    · have hg : g = n := by
        by_cases e : g = n
        · exact e
        · exfalso
          have hgf : g ≠ f := by rintro rfl; exact hx q1
          exact q2 (by simp only [FJ.new, set_ne _ _ hgf, set_ne _ _ e]; exact q1)
      subst hg
      simp only [FJ.new, set_same, set_ne _ _ (Ne.symm hnf), and_self]
    · have hgf : g ≠ f := by rintro rfl; simp [set_same] at q
      have hgn : g ≠ n := by rintro rfl; simp [FJ.new, set_same, set_ne _ _ hgf] at q
      simp only [FJ.new, set_ne _ _ hgf, set_ne _ _ hgn] at q ⊢
      exact h.none g q
  | call n c k x h1 h2 h3 =>
    have hnf : f ≠ n := by rintro rfl; exact hx h3
    have h3' := h.none n h3
    have st' := FJ.Step.call (may := may) b n c k x (by rw [u2]; exact h1) (by rw [u1]; exact h2) h3'
    refine ⟨_, st', h.both (.call a n c k x h1 h2 h3) st' hf hU hC ?_ (fun g q1 q2 => ?_) (fun g q => ?_) (fun _ h => h)⟩
    · simp only [FJ.new, set_same, set_ne _ _ hnf, u1, u3, u4, and_self]
    · have hg : g = n := by
        by_cases e : g = n
        · exact e
        · exfalso
          have hgf : g ≠ f := by rintro rfl; exact hx q1
          exact q2 (by simp only [FJ.new, set_ne _ _ hgf, set_ne _ _ e]; exact q1)
      subst hg
      simp only [FJ.new, set_same, set_ne _ _ (Ne.symm hnf), and_self]
    · have hgf : g ≠ f := by rintro rfl; simp [set_same] at q
      have hgn : g ≠ n := by rintro rfl; simp [FJ.new, set_same, set_ne _ _ hgf] at q
      simp only [FJ.new, set_ne _ _ hgf, set_ne _ _ hgn] at q ⊢
      exact h.none g q
  | resume n c k x w h1 h2 h3 =>
    have go : ∀ w', k w' = k w → (w' = true → ∃ r, b.mode n = .ended r) → ∃ b', FJ.Step body may f b b' ∧ Cut U' C' fe ye (a.on f (k w)) b' := fun w' hk hw => by
      refine plain _ (.resume b n c k x w' (by rw [u2]; exact h1) (by rw [u1]; exact h2) hw) (sm _ _) ?_ ?_ u3 u4 fun _ h => h
      · simp only [FJ.on, set_same, hk]
      · simp only [FJ.on, set_same]
    cases w with
    | false => exact go false rfl fun h => by cases h
    | true =>
      rcases hr n c k x h1 h2 with hu | hu
      · exact go true rfl fun _ => by
          obtain ⟨r, hr⟩ := h3 rfl
          exact ⟨r, by rw [(h.un n hu).2.1]; exact hr⟩
      · simp only [FJ.on, set_same] at hu
        exact go false hu.symm fun h => by cases h
  | back n r c k x h1 h2 h3 =>
    refine plain _ (.back b n r c k x (by rw [u2]; exact h1) (by rw [(h.un n (hc n h1)).2.1]; exact h2) (by rw [u1]; exact h3)) (sm _ _) ?_ ?_ u3 ?_ fun _ h => h
    · simp only [FJ.on, set_same]
    · simp only [FJ.on, set_same]
    · simp only [set_same, u4]
  | join rs k x h1 h2 h3 h4 h5 =>
    have h3' : Ended b.mode (b.kids f) rs := by rw [u3]; exact ended_of h3 fun c hc => (h.un c (hj k x h1 h2 c hc)).2.1
    refine plain _ (.join b rs k x (by rw [u2]; exact h1) (by rw [u1]; exact h2) h3' h4 (by rw [u4]; exact h5)) (sm _ _) ?_ ?_ ?_ u4 fun _ h => h
    · simp only [FJ.on, set_same]
    · simp only [FJ.on, set_same]
    · simp only [set_same]
  | rethrow rs e k x h1 h2 h3 h4 =>
    have h3' : Ended b.mode (b.kids f) rs := by rw [u3]; exact ended_of h3 fun c hc => (h.un c (hj k x h1 h2 c hc)).2.1
    refine plain _ (.rethrow b rs e k x (by rw [u2]; exact h1) (by rw [u1]; exact h2) h3' (by rw [u4]; exact h4)) (sm _ _) ?_ ?_ ?_ ?_ fun _ h => h
    · simp only [FJ.on, set_same]
    · simp only [FJ.on, set_same]
    · simp only [set_same]
    · simp only [set_same]
  | switch d k x h1 h2 =>
    exact plain _ (.switch b d k x (by rw [u2]; exact h1) (by rw [u1]; exact h2)) (sm _ _) (by simp only [FJ.on, set_same]) (by simp only [FJ.on, set_same]) u3 u4 fun _ h => h
  | forkFails e c k x h1 h2 h3 =>
    exact plain _ (.forkFails b e c k x (by rw [u2]; exact h1) (by rw [u1]; exact h2) h3) (sm _ _) (by simp only [FJ.on, set_same]) (by simp only [FJ.on, set_same]) u3 u4 fun _ h => h
  | callFails e c k x h1 h2 h3 =>
    exact plain _ (.callFails b e c k x (by rw [u2]; exact h1) (by rw [u1]; exact h2) h3) (sm _ _) (by simp only [FJ.on, set_same]) (by simp only [FJ.on, set_same]) u3 u4 fun _ h => h
  | switchFails e d k x h1 h2 h3 =>
    exact plain _ (.switchFails b e d k x (by rw [u2]; exact h1) (by rw [u1]; exact h2) h3) (sm _ _) (by simp only [FJ.on, set_same]) (by simp only [FJ.on, set_same]) u3 u4 fun _ h => h
  | load l k h1 h2 =>
    have hm := h.mem l (hl l k h2)
    exact plain _ (.load b l k (by rw [u2]; exact h1) (by rw [u1]; exact h2)) (sm _ _) (by simp only [FJ.on, set_same, hm]) (by simp only [FJ.on, set_same]) u3 u4 fun _ h => h
  | store l d k h1 h2 =>
    refine plain _ (.store b l d k (by rw [u2]; exact h1) (by rw [u1]; exact h2)) (sm _ _) (by simp only [FJ.on, set_same]) (by simp only [FJ.on, set_same]) u3 u4 fun l' h => ?_
    simp only [put]; split
    · rfl
    · exact h

omit [DecidableEq L] in
/-- A task is submitted, in both. -/
theorem Cut.submit {n : Nat} {c : σ} (h : Cut U C fe ye a b) (hn : a.mode n = .none) (hU : ∀ g, U' g → U g ∨ g = n) : Cut U' C fe ye (a.submit n c) (b.submit n c) := by
  have hfe : fe ≠ n := by rintro rfl; have := h.none fe hn; rw [h.fz.2.1] at this; cases this
  refine ⟨fun g hg => ?_, fun g hg => ?_, fun g hg => ?_, h.mem, fun g c' hc => ?_, fun hu => ?_, ?_, ?_⟩
  · by_cases e : g = n
    · subst e; simp only [FJ.submit, FJ.new, set_same, and_self]
    · rcases hU g hg with hg | hg
      · simp only [FJ.submit, FJ.new, set_ne _ _ e]; exact h.un g hg
      · exact absurd hg e
  · by_cases e : g = n
    · subst e; simp [FJ.submit, FJ.new, set_same]
    · rcases hU g hg with hg | hg
      · simp only [FJ.submit, FJ.new, set_ne _ _ e]; exact h.ex g hg
      · exact absurd hg e
  · by_cases e : g = n
    · subst e; simp [FJ.submit, FJ.new, set_same] at hg
    · simp only [FJ.submit, FJ.new, set_ne _ _ e] at hg ⊢; exact h.none g hg
  · rcases List.mem_cons.1 hc with hc | hc
    · rw [hc]; exact List.mem_cons_self ..
    · exact List.mem_cons_of_mem _ (h.rts g c' hc)
  · exact (hU fe hu).elim h.fz.1 hfe
  · simp only [FJ.submit, FJ.new, set_ne _ _ hfe]; exact h.fz.2.1
  · simp only [FJ.submit, FJ.new, set_ne _ _ hfe]; exact h.fz.2.2

omit [DecidableEq L] in
/-- Only in one. -/
theorem Cut.unsent {n : Nat} {c : σ} (h : Cut U C fe ye a b) (hn : a.mode n = .none) (hU : ∀ g, U' g → U g) : Cut U' C fe ye (a.submit n c) b := by
  have hne : ∀ g, U' g → g ≠ n := by rintro g hg rfl; exact h.ex _ (hU _ hg) hn
  refine ⟨fun g hg => ?_, fun g hg => ?_, fun g hg => ?_, h.mem, fun g c' hc => List.mem_cons_of_mem _ (h.rts g c' hc), fun hu => h.fz.1 (hU _ hu), h.fz.2⟩
  · simp only [FJ.submit, FJ.new, set_ne _ _ (hne g hg)]; exact h.un g (hU g hg)
  · simp only [FJ.submit, FJ.new, set_ne _ _ (hne g hg)]; exact h.ex g (hU g hg)
  · by_cases e : g = n
    · subst e; simp [FJ.submit, FJ.new, set_same] at hg
    · simp only [FJ.submit, FJ.new, set_ne _ _ e] at hg; exact h.none g hg

end

end Verif.Hb
