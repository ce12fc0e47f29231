import Verif.Hb.Inv

/-!
The invariant is kept by what steps are made of.
-/
namespace Verif.Hb
open Verif.Runtime (Pc Loc Link Alive upd upd_apply upd_same upd_ne)

variable {nf : Nat} {loc : Nat → Loc} {pc : Nat → Pc} {stolen : Nat → Nat} {link : Nat → Link} {h : Clk} {g : Ord} {B : Nat → List Nat}

/-- The worker has the task. -/
def Has (w : Nat) : Loc → Prop
  | .running v => v = w
  | .stolenBy v => v = w
  | .winning v => v = w
  | _ => False

theorem Has.alive {w : Nat} {l : Loc} (x : Has w l) : Alive l := by cases l <;> first | exact x | trivial

theorem HK.of_has {w f : Nat} {l : Loc} (x : Has w l) (hk : HK h B f l) : B f ⊆ h.kn w := by
  cases l <;> first | exact x.elim | (cases x; first | exact hk | exact hk.1)

theorem I.grow (i : I nf loc pc stolen link h g B) (h' : Clk) (hn : ∀ w, h.kn w ⊆ h'.kn w) (hq : h'.kq = h.kq) (hb : h'.kb = h.kb) (hj : h'.kj = h.kj)
    (hr : h'.kr = h.kr) (ht : ∀ t, h.kt t ⊆ h'.kt t) : I nf loc pc stolen link h' g B := by
  refine ⟨i.lb, fun f => ?_, fun p ha e he => ?_, ?_, fun w p c hp => fun e he => hn w (i.fin w p c hp he), ?_, i.par, i.kid, fun t e he => ht t (i.tk t he)⟩
  · have := i.hk f
    cases hl : loc f <;> rw [hl] at this <;> simp only [HK, hq, hb, hj] at this ⊢
    · exact fun e he => hn _ (this he)
    · exact fun e he => hn _ (this he)
    · exact ⟨this.1, fun e he => hn _ (this.2 he)⟩
    · exact this
    · exact this
    · exact this
    · exact ⟨fun e he => hn _ (this.1 he), fun e he => hn _ (this.2 he)⟩
  · rw [hj]
    rcases i.dd p ha e he with h1 | h1 | ⟨w, c, h1, h2⟩
    · exact .inl h1
    · exact .inr (.inl h1)
    · exact .inr (.inr ⟨w, c, h1, hn w h2⟩)
  · rw [hj]; exact i.kj
  · rw [hr]; exact i.root

theorem I.tick (i : I nf loc pc stolen link h g B) (w : Nat) : I nf loc pc stolen link (h.tick w) g B :=
  i.grow _ (fun v e he => by simp only [Clk.tick, upd_apply]; split <;> simp_all) rfl rfl rfl rfl fun _ _ h => h

theorem I.acquire (i : I nf loc pc stolen link h g B) (w : Nat) (k : List Nat) : I nf loc pc stolen link (h.acquire w k) g B :=
  i.grow _ (fun v e he => by simp only [Clk.acquire, upd_apply]; split <;> simp_all) rfl rfl rfl rfl fun _ _ h => h

/-- The worker that has `f` has all it knows in `B f`. -/
theorem I.hold (i : I nf loc pc stolen link h g B) {w f : Nat} (x : Has w (loc f)) : I nf loc pc stolen link h g (upd B f (h.kn w)) := by
  have hB := HK.of_has x (i.hk f)
  have hm : ∀ c, B c ⊆ upd B f (h.kn w) c := fun c e he => by
    rw [upd_apply]; split
    · rename_i e; subst e; exact hB he
    · exact he
  refine ⟨fun c ha e he => hm c (i.lb c ha he), fun c => ?_, fun p ha e he => ?_, i.kj, i.fin, i.root, i.par, i.kid, i.tk⟩
  · by_cases e : c = f
    · subst e
      have := i.hk c
      cases hl : loc c <;> rw [hl] at x this <;> first | exact x.elim | (cases x; simp only [HK, upd_same] at this ⊢; first | exact fun _ h => h | exact ⟨fun _ h => h, this.2⟩)
    · have := i.hk c
      cases hl : loc c <;> rw [hl] at this <;> simp only [HK, upd_ne _ _ e] at this ⊢ <;> first | exact this | exact fun y hy => hm _ (this hy)
  · rcases i.dd p ha e he with h1 | h1 | h1
    · exact .inl h1
    · exact .inr (.inl (hm p h1))
    · exact .inr (.inr h1)

/-- `Ord` changes for one task only. -/
theorem I.setL (i : I nf loc pc stolen link h g B) {w f : Nat} (x : Has w (loc f)) (hB : B f = h.kn w) (hf : ∀ w p, ¬ Pend p f (pc w)) {l d : List Nat}
    (hl : l ⊆ h.kn w) (hdd : d ⊆ g.D f) : I nf loc pc stolen link h { g with L := upd g.L f l, D := upd g.D f d } B := by
  refine ⟨fun c ha => ?_, i.hk, fun p ha e he => ?_, i.kj, fun v p c hp => ?_, fun c k hk => ?_, i.par, i.kid, i.tk⟩
  · by_cases e : c = f
    · subst e; show upd g.L c l c ⊆ _; rw [upd_same, hB]; exact hl
    · show upd g.L f l c ⊆ _; rw [upd_ne _ _ e]; exact i.lb c ha
  · by_cases e' : p = f
    · subst e'; simp only [upd_same] at he; exact i.dd p ha e (hdd he)
    · simp only [upd_ne _ _ e'] at he; exact i.dd p ha e he
  · have : c ≠ f := by rintro rfl; exact hf v p hp
    show upd g.L f l c ⊆ _
    rw [upd_ne _ _ this]; exact i.fin v p c hp
  · have h1 := i.root c k hk
    have : c ≠ f := by rintro rfl; rw [h1.2] at x; exact x
    show upd g.L f l c ⊆ _ ∧ _
    rw [upd_ne _ _ this]; exact h1

theorem upd_self {α : Type} (f : Nat → α) (j : Nat) : upd f j (f j) = f := by funext k; rw [upd_apply]; split <;> simp_all

theorem I.act (i : I nf loc pc stolen link h g B) {w f n : Nat} (x : Has w (loc f)) (hB : B f = h.kn w) (hf : ∀ w p, ¬ Pend p f (pc w)) (hn : n ∈ h.kn w) :
    I nf loc pc stolen link h (g.act n f) B := by
  have := i.setL x hB hf (l := n :: g.L f) (d := g.D f) (by
    intro e he
    rcases List.mem_cons.1 he with rfl | he
    · exact hn
    · rw [← hB]; exact i.lb f x.alive he) (fun _ h => h)
  rw [upd_self] at this
  exact this

theorem I.join (i : I nf loc pc stolen link h g B) {w f : Nat} (x : Has w (loc f)) (hB : B f = h.kn w) (hf : ∀ w p, ¬ Pend p f (pc w)) (hD : g.D f ⊆ h.kn w) :
    I nf loc pc stolen link h (g.join f) B :=
  i.setL x hB hf (l := g.D f ++ g.L f) (d := []) (by
    intro e he
    rcases List.mem_append.1 he with he | he
    · exact hD he
    · rw [← hB]; exact i.lb f x.alive he) (by simp)

theorem I.told (i : I nf loc pc stolen link h g B) {w p : Nat} (x : Has w (loc p)) (hB : B p = h.kn w) (hf : ∀ w q, ¬ Pend q p (pc w)) (hL : g.L (g.kid p) ⊆ h.kn w) :
    I nf loc pc stolen link h (g.told p) B := by
  have := i.setL x hB hf (l := g.L (g.kid p) ++ g.L p) (d := g.D p) (by
    intro e he
    rcases List.mem_append.1 he with he | he
    · exact hL he
    · rw [← hB]; exact i.lb p x.alive he) (fun _ h => h)
  rw [upd_self] at this
  exact this

/-- The worker goes somewhere else, where it is not about to tell a parent; nor was it. -/
theorem I.goto (i : I nf loc pc stolen link h g B) {w : Nat} {q : Pc} (h1 : ∀ p c, ¬ Pend p c (pc w)) (h2 : ∀ p c, ¬ Pend p c q) :
    I nf loc (upd pc w q) stolen link h g B := by
  refine ⟨i.lb, i.hk, fun p ha e he => ?_, i.kj, fun v p c hp => ?_, i.root, i.par, i.kid, i.tk⟩
  · rcases i.dd p ha e he with h3 | h3 | ⟨v, c, h3, h4⟩
    · exact .inl h3
    · exact .inr (.inl h3)
    · have : v ≠ w := by rintro rfl; exact h1 p c h3
      exact .inr (.inr ⟨v, c, by rw [upd_ne _ _ this]; exact h3, h4⟩)
  · by_cases e : v = w
    · subst e; rw [upd_same] at hp; exact absurd hp (h2 p c)
    · rw [upd_ne _ _ e] at hp; exact i.fin v p c hp

/-- A task moves from one place to another. -/
theorem I.move (i : I nf loc pc stolen link h g B) {f : Nat} {l : Loc} (hl : loc f ≠ .gone) (hn : l ≠ .gone) (ha : Alive (loc f)) (h1 : HK h B f l)
    (h2 : h.kj f ≠ [] → stolen f ≠ 0 ∨ (∃ w, l = .stolenBy w) ∨ ∃ w c, l = .queued w c ∧ loc c = .gone) (h3 : ∀ w c, l = .queued w c → g.kid f = c) :
    I nf (upd loc f l) pc stolen link h g B := by
  have al : ∀ p, Alive (upd loc f l p) → Alive (loc p) := fun p hp => by
    by_cases e : p = f
    · subst e; exact ha
    · rw [upd_ne _ _ e] at hp; exact hp
  refine ⟨fun p hp => i.lb p (al p hp), fun p => ?_, fun p hp => i.dd p (al p hp), fun p hp hj => ?_, i.fin, fun p k hk => ?_, i.par, fun w p c hp => ?_, i.tk⟩
  · by_cases e : p = f
    · subst e; rw [upd_same]; exact h1
    · rw [upd_ne _ _ e]; exact i.hk p
  · have gn : ∀ c, loc c = .gone → upd loc f l c = .gone := fun c hc => by
      rw [upd_ne]
      · exact hc
      · rintro rfl; exact hl hc
    by_cases e : p = f
    · subst e
      rw [upd_same]
      rcases h2 hj with h4 | h4 | ⟨w, c, h4, h5⟩
      · exact .inl h4
      · exact .inr (.inl h4)
      · exact .inr (.inr ⟨w, c, h4, gn c h5⟩)
    · rw [upd_ne _ _ e]
      rcases i.kj p (al p hp) hj with h4 | h4 | ⟨w, c, h4, h5⟩
      · exact .inl h4
      · exact .inr (.inl h4)
      · exact .inr (.inr ⟨w, c, h4, gn c h5⟩)
  · have := i.root p k hk
    refine ⟨this.1, ?_⟩
    rw [upd_ne]
    · exact this.2
    · rintro rfl; exact hl this.2
  · by_cases e : p = f
    · subst e; rw [upd_same] at hp; exact h3 w c hp
    · rw [upd_ne _ _ e] at hp; exact i.kid w p c hp

theorem I.setq (i : I nf loc pc stolen link h g B) {f : Nat} (k : List Nat) (hf : ∀ w c, loc f ≠ .queued w c) :
    I nf loc pc stolen link { h with kq := upd h.kq f k } g B := by
  refine ⟨i.lb, fun c => ?_, i.dd, i.kj, i.fin, i.root, i.par, i.kid, i.tk⟩
  have := i.hk c
  cases hl : loc c <;> rw [hl] at this <;> try exact this
  have : c ≠ f := by rintro rfl; exact hf _ _ hl
  simp only [HK, upd_ne _ _ this]
  assumption

theorem I.setb (i : I nf loc pc stolen link h g B) {f : Nat} (k : List Nat) (hf : ∀ w, loc f ≠ .inbox w) :
    I nf loc pc stolen link { h with kb := upd h.kb f k } g B := by
  refine ⟨i.lb, fun c => ?_, i.dd, i.kj, i.fin, i.root, i.par, i.kid, i.tk⟩
  have := i.hk c
  cases hl : loc c <;> rw [hl] at this <;> try exact this
  have : c ≠ f := by rintro rfl; exact hf _ hl
  simp only [HK, upd_ne _ _ this]
  assumption

/-- The join counter of `f` is decremented. -/
theorem I.decr (i : I nf loc pc stolen link h g B) {f : Nat} (k : List Nat) (hf : ∀ w, loc f ≠ .winning w)
    (hk : stolen f ≠ 0 ∨ (∃ w, loc f = .stolenBy w) ∨ ∃ w c, loc f = .queued w c ∧ loc c = .gone) :
    I nf loc pc stolen link { h with kj := upd h.kj f (k ++ h.kj f) } g B := by
  have hm : ∀ c, h.kj c ⊆ upd h.kj f (k ++ h.kj f) c := fun c e he => by
    rw [upd_apply]; split
    · rename_i e; subst e; exact List.mem_append.2 (.inr he)
    · exact he
  refine ⟨i.lb, fun c => ?_, fun p ha e he => ?_, fun p ha hj => ?_, i.fin, i.root, i.par, i.kid, i.tk⟩
  · have := i.hk c
    cases hl : loc c <;> rw [hl] at this <;> try exact this
    · exact fun e he => hm c (this he)
    · have : c ≠ f := by rintro rfl; exact hf _ hl
      simp only [HK, upd_ne _ _ this]
      assumption
  · rcases i.dd p ha e he with h1 | h1
    · exact .inl (hm p h1)
    · exact .inr h1
  · by_cases e : p = f
    · subst e; exact hk
    · refine i.kj p ha ?_
      simp only [upd_ne _ _ e] at hj
      exact hj

/-- It is constructed anew. -/
theorem I.store (i : I nf loc pc stolen link h g B) {w f : Nat} (x : Has w (loc f)) (hD : g.D f = []) : I nf loc pc stolen link (h.store f) g B := by
  refine ⟨i.lb, fun c => ?_, fun p ha e he => ?_, fun p ha hj => ?_, i.fin, i.root, i.par, i.kid, i.tk⟩
  · by_cases e : c = f
    · subst e
      have := i.hk c
      cases hl : loc c <;> rw [hl] at x this <;> first | exact x.elim | exact this | exact ⟨this.1, by simp [Clk.store, upd_same]⟩
    · have := i.hk c
      cases hl : loc c <;> rw [hl] at this <;> simp only [HK, Clk.store, upd_ne _ _ e] at this ⊢ <;> exact this
  · by_cases e' : p = f
    · subst e'; rw [hD] at he; cases he
    · simp only [Clk.store, upd_ne _ _ e']; exact i.dd p ha e he
  · by_cases e' : p = f
    · subst e'; simp only [Clk.store, upd_same] at hj; exact absurd rfl hj
    · simp only [Clk.store, upd_ne _ _ e'] at hj; exact i.kj p ha hj

theorem I.setStolen (i : I nf loc pc stolen link h g B) {stolen' : Nat → Nat} {f : Nat} (hs : ∀ p, p ≠ f → stolen' p = stolen p) (hf : h.kj f = [] ∨ stolen' f ≠ 0) :
    I nf loc pc stolen' link h g B := by
  refine ⟨i.lb, i.hk, i.dd, fun p ha hj => ?_, i.fin, i.root, i.par, i.kid, i.tk⟩
  by_cases e : p = f
  · subst e
    rcases hf with h1 | h1
    · exact absurd h1 hj
    · exact .inl h1
  · rw [hs p e]; exact i.kj p ha hj

/-- A task ends, or has told its parent. -/
theorem I.leave (i : I nf loc pc stolen link h g B) {c : Nat} {l : Loc} (hl : loc c ≠ .gone) (hna : ¬ Alive l) : I nf (upd loc c l) pc stolen link h g B := by
  have al : ∀ p, Alive (upd loc c l p) → p ≠ c := fun p hp e => by subst e; rw [upd_same] at hp; exact hna hp
  have gn : ∀ p, loc p = .gone → upd loc c l p = .gone := fun p hp => by
    rw [upd_ne]
    · exact hp
    · rintro rfl; exact hl hp
  refine ⟨fun p hp => ?_, fun p => ?_, fun p hp => ?_, fun p hp hj => ?_, i.fin, fun p k hk => ?_, i.par, fun w p c' hp => ?_, i.tk⟩
  · have e := al p hp; rw [upd_ne _ _ e] at hp; exact i.lb p hp
  · by_cases e : p = c
    · subst e; rw [upd_same]; cases l <;> first | exact absurd trivial hna | trivial
    · rw [upd_ne _ _ e]; exact i.hk p
  · have e := al p hp; rw [upd_ne _ _ e] at hp; exact i.dd p hp
  · have e := al p hp
    rw [upd_ne _ _ e] at hp ⊢
    rcases i.kj p hp hj with h1 | h1 | ⟨w, c', h1, h2⟩
    · exact .inl h1
    · exact .inr (.inl h1)
    · exact .inr (.inr ⟨w, c', h1, gn c' h2⟩)
  · exact ⟨(i.root p k hk).1, gn p (i.root p k hk).2⟩
  · have e : p ≠ c := al p (by rw [hp]; trivial)
    rw [upd_ne _ _ e] at hp; exact i.kid w p c' hp

/-- The worker is about to tell the parent of `c`. -/
theorem I.gotoP (i : I nf loc pc stolen link h g B) {w p c : Nat} {q : Pc} (hq : Pend p c q) (hL : g.L c ⊆ h.kn w)
    (old : ∀ p' c', Pend p' c' (pc w) → p' = p ∧ c' = c) : I nf loc (upd pc w q) stolen link h g B := by
  refine ⟨i.lb, i.hk, fun p' ha e he => ?_, i.kj, fun v p' c' hp => ?_, i.root, i.par, i.kid, i.tk⟩
  · rcases i.dd p' ha e he with h3 | h3 | ⟨v, c', h3, h4⟩
    · exact .inl h3
    · exact .inr (.inl h3)
    · by_cases e : v = w
      · subst e
        obtain ⟨e1, e2⟩ := old _ _ h3
        subst e1 e2
        exact .inr (.inr ⟨v, c', by rw [upd_same]; exact hq, h4⟩)
      · exact .inr (.inr ⟨v, c', by rw [upd_ne _ _ e]; exact h3, h4⟩)
  · by_cases e : v = w
    · subst e
      rw [upd_same] at hp
      have : c' = c := by
        rcases hp with hp | ⟨b, hp⟩ <;> rcases hq with hq | ⟨b', hq⟩ <;> rw [hp] at hq <;> cases hq <;> rfl
      rw [this]; exact hL
    · rw [upd_ne _ _ e] at hp; exact i.fin v p' c' hp

/-- It has. -/
theorem I.gotoR (i : I nf loc pc stolen link h g B) {w p : Nat} {q : Pc} (hq : ∀ p c, ¬ Pend p c q) (hw : ∀ e ∈ h.kn w, e ∈ h.kj p ∨ e ∈ B p)
    (old : ∀ p' c', Pend p' c' (pc w) → p' = p) : I nf loc (upd pc w q) stolen link h g B := by
  refine ⟨i.lb, i.hk, fun p' ha e he => ?_, i.kj, fun v p' c' hp => ?_, i.root, i.par, i.kid, i.tk⟩
  · rcases i.dd p' ha e he with h3 | h3 | ⟨v, c', h3, h4⟩
    · exact .inl h3
    · exact .inr (.inl h3)
    · by_cases e' : v = w
      · subst e'
        have e1 := old _ _ h3
        subst e1
        rcases hw e h4 with h5 | h5
        · exact .inl h5
        · exact .inr (.inl h5)
      · exact .inr (.inr ⟨v, c', by rw [upd_ne _ _ e']; exact h3, h4⟩)
  · by_cases e : v = w
    · subst e; rw [upd_same] at hp; exact absurd hp (hq p' c')
    · rw [upd_ne _ _ e] at hp; exact i.fin v p' c' hp

/-- A step of a child on its way to tell its parent. -/
theorem I.actC (i : I nf loc pc stolen link h g B) {w p c n : Nat} (hp : Pend p c (pc w)) (hc : ¬ Alive (loc c)) (hg : loc c ≠ .gone) (hn : n ∈ h.kn w)
    (hu : ∀ v p', Pend p' c (pc v) → v = w) : I nf loc pc stolen link h (g.act n c) B := by
  refine ⟨fun f ha => ?_, i.hk, i.dd, i.kj, fun v p' c' hp' => ?_, fun f k hk => ?_, i.par, i.kid, i.tk⟩
  · have : f ≠ c := by rintro rfl; exact hc ha
    show upd g.L c _ f ⊆ _
    rw [upd_ne _ _ this]; exact i.lb f ha
  · show upd g.L c _ c' ⊆ _
    by_cases e : c' = c
    · subst e
      have := hu v p' hp'
      subst this
      rw [upd_same]
      intro e he
      rcases List.mem_cons.1 he with rfl | he
      · exact hn
      · exact i.fin v p' c' hp' he
    · rw [upd_ne _ _ e]; exact i.fin v p' c' hp'
  · have h1 := i.root f k hk
    have : f ≠ c := by rintro rfl; exact hg h1.2
    show upd g.L c _ f ⊆ _ ∧ _
    rw [upd_ne _ _ this]; exact h1

theorem I.setD (i : I nf loc pc stolen link h g B) {w p c : Nat} (hp : Pend p c (pc w)) {l : List Nat} (hl : l ⊆ h.kn w) :
    I nf loc pc stolen link h { g with D := upd g.D p (l ++ g.D p) } B := by
  refine ⟨i.lb, i.hk, fun p' ha e he => ?_, i.kj, i.fin, i.root, i.par, i.kid, i.tk⟩
  by_cases e' : p' = p
  · subst e'
    simp only [upd_same] at he
    rcases List.mem_append.1 he with he | he
    · exact .inr (.inr ⟨w, c, hp, hl he⟩)
    · exact i.dd p' ha e he
  · simp only [upd_ne _ _ e'] at he; exact i.dd p' ha e he

/-- A root has ended. -/
theorem I.signal (i : I nf loc pc stolen link h g B) {f : Nat} {k : List Nat} (hf : loc f = .gone) (hk : g.L f ⊆ k) :
    I nf loc pc stolen link { h with kr := upd h.kr f (some k) } g B := by
  refine ⟨i.lb, i.hk, i.dd, i.kj, i.fin, fun c k' hk' => ?_, i.par, i.kid, i.tk⟩
  by_cases e : c = f
  · subst e
    simp only [upd_same] at hk'
    cases hk'
    exact ⟨hk, hf⟩
  · simp only [upd_ne _ _ e] at hk'; exact i.root c k' hk'

/-- A new task. -/
theorem I.new (i : I nf loc pc stolen link h g B) {l : Loc} {L b kb : List Nat} {par : Par} {lk : Link} {stolen' : Nat → Nat} (un : loc nf = .unborn) (cw : ∀ p, loc p ≠ .callwait nf)
    (pd : ∀ w p, ¬ Pend p nf (pc w)) (hp : ParOk par lk) (hL : L ⊆ b) (hs : ∀ p, p ≠ nf → stolen' p = stolen p)
    (hl : (∃ w, l = .running w ∧ b ⊆ h.kn w) ∨ ∃ w, l = .inbox w ∧ b ⊆ kb) :
    I (nf + 1) (upd loc nf l) pc stolen' (upd link nf lk) { h with kj := upd h.kj nf [], kb := upd h.kb nf kb }
      { g with L := upd g.L nf L, D := upd g.D nf [], par := upd g.par nf par } (upd B nf b) := by
  have al : ∀ p, p ≠ nf → Alive (upd loc nf l p) → Alive (loc p) := fun p e hp => by rw [upd_ne _ _ e] at hp; exact hp
  refine ⟨fun p hp => ?_, fun p => ?_, fun p hp e he => ?_, fun p hp hj => ?_, fun w p c hp => ?_, fun p k hk => ?_, fun p hp' => ?_, fun w p c hp => ?_, i.tk⟩
  · by_cases e : p = nf
    · subst e; simp only [upd_same]; exact hL
    · simp only [upd_ne _ _ e]; exact i.lb p (al p e hp)
  · by_cases e : p = nf
    · subst e
      rw [upd_same]
      rcases hl with ⟨w, rfl, h1⟩ | ⟨w, rfl, h1⟩
      · simp only [HK, upd_same]; exact h1
      · simp only [HK, upd_same]; exact h1
    · rw [upd_ne _ _ e]
      have := i.hk p
      cases hq : loc p <;> rw [hq] at this <;> simp only [HK, upd_ne _ _ e] at this ⊢ <;> try exact this
      rename_i c
      have : c ≠ nf := by rintro rfl; exact cw p hq
      rw [upd_ne _ _ this]; assumption
  · by_cases e' : p = nf
    · subst e'; simp only [upd_same] at he; cases he
    · simp only [upd_ne _ _ e'] at he ⊢; exact i.dd p (al p e' hp) e he
  · by_cases e : p = nf
    · subst e; simp only [upd_same] at hj; exact absurd rfl hj
    · simp only [upd_ne _ _ e] at hj ⊢
      rw [hs p e]
      rcases i.kj p (al p e hp) hj with h1 | h1 | ⟨w, c, h1, h2⟩
      · exact .inl h1
      · exact .inr (.inl h1)
      · have : c ≠ nf := by rintro rfl; rw [un] at h2; cases h2
        exact .inr (.inr ⟨w, c, h1, by rw [upd_ne _ _ this]; exact h2⟩)
  · have : c ≠ nf := by rintro rfl; exact pd w p hp
    simp only [upd_ne _ _ this]; exact i.fin w p c hp
  · have h1 := i.root p k hk
    have : p ≠ nf := by rintro rfl; rw [un] at h1; cases h1.2
    simp only [upd_ne _ _ this]; exact h1
  · by_cases e : p = nf
    · subst e; simp only [upd_same]; exact hp
    · simp only [upd_ne _ _ e]; exact i.par p (by omega)
  · by_cases e : p = nf
    · subst e
      rw [upd_same] at hp
      rcases hl with ⟨w, rfl, h1⟩ | ⟨w, rfl, h1⟩ <;> cases hp
    · rw [upd_ne _ _ e] at hp; exact i.kid w p c hp

theorem I.setKid (i : I nf loc pc stolen link h g B) {f c : Nat} (hf : ∀ w c, loc f ≠ .queued w c) : I nf loc pc stolen link h { g with kid := upd g.kid f c } B := by
  refine ⟨i.lb, i.hk, i.dd, i.kj, i.fin, i.root, i.par, fun w p c' hp => ?_, i.tk⟩
  have : p ≠ f := by rintro rfl; exact hf _ _ hp
  simp only [upd_ne _ _ this]; exact i.kid w p c' hp

end Verif.Hb
