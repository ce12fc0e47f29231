import Verif.Weak.StartInv

/-! C50: invariants about views. -/
namespace Verif.Weak.Start

/-- From one state to a later one. -/
structure Grow (m : Mem Loc) (tv : Nat → TV Loc) (m' : Mem Loc) (tv' : Nat → TV Loc) : Prop where
  len : ∀ l, m.len l ≤ m'.len l
  cur : ∀ t l, (tv t).cur l ≤ (tv' t).cur l
  sv : ∀ x, m.view .start (m.last .start) x ≤ m'.view .start (m'.last .start) x
  lv : ∀ x, m.view .stopL (m.last .stopL) x ≤ m'.view .stopL (m'.last .stopL) x
  fv : ∀ k, k < m.len .flag → m'.view .flag k = m.view .flag k
  wf : MWf m → (∀ t, TWf m (tv t)) → MWf m' ∧ ∀ t, TWf m' (tv' t)

theorem Grow.refl (m : Mem Loc) (tv : Nat → TV Loc) : Grow m tv m tv :=
  ⟨fun _ => Nat.le_refl _, fun _ _ => Nat.le_refl _, fun _ => Nat.le_refl _, fun _ => Nat.le_refl _, fun _ _ => rfl, fun a b => ⟨a, b⟩⟩

theorem upd_all {α : Type} {P : Nat → α → Prop} {f : Nat → α} {t : Nat} {x : α} (h : P t x) (h' : ∀ u, P u (f u)) (u : Nat) :
    P u (upd f t x u) := by
  by_cases e : u = t
  · subst e; rw [upd_same]; exact h
  · rw [upd_ne _ _ e]; exact h' u

theorem last_append_ne {m : Mem Loc} {l x : Loc} {v : Int} {w : View Loc} (h : x ≠ l) : (m.append l v w).last x = m.last x := by
  unfold Mem.last; rw [Mem.len_append, if_neg h]

theorem last_append_same {m : Mem Loc} {l : Loc} {v : Int} {w : View Loc} : (m.append l v w).last l = m.len l := by
  unfold Mem.last; rw [Mem.len_append, if_pos rfl]; omega

theorem view_append_ne {m : Mem Loc} {l x : Loc} {v : Int} {w : View Loc} (h : x ≠ l) (k : Nat) :
    (m.append l v w).view x k = m.view x k := by rw [Mem.view_append, if_neg (fun e => h e.1)]

theorem view_append_old {m : Mem Loc} {l x : Loc} {v : Int} {w : View Loc} {k : Nat} (h : k < m.len x) :
    (m.append l v w).view x k = m.view x k := by
  rw [Mem.view_append, if_neg]
  rintro ⟨rfl, e⟩; omega

theorem view_append_same {m : Mem Loc} {l : Loc} {v : Int} {w : View Loc} : (m.append l v w).view l (m.len l) = w := by
  rw [Mem.view_append, if_pos ⟨rfl, rfl⟩]

/-- A plain write. -/
theorem Grow.write (s : St) (wt : TWf s.mem (s.tv t)) (hl : l ≠ .start ∧ l ≠ .stopL ∧ l ≠ .flag) :
    Grow s.mem s.tv (s.write t l v).mem (s.write t l v).tv := by
  refine ⟨fun x => Mem.len_le_append _ _ _ _ x, fun u x => ?_, fun x => ?_, fun x => ?_, fun k _ => view_append_ne hl.2.2.symm k, fun a b => ⟨?_, ?_⟩⟩
  · refine upd_all (P := fun u (y : TV Loc) => (s.tv u).cur x ≤ y.cur x) ?_ (fun _ => Nat.le_refl _) u
    have := wt.cur x
    simp only [TV.bump]; split
    · subst_vars; omega
    · exact Nat.le_refl _
  · show _ ≤ (s.mem.append _ _ _).view _ ((s.mem.append _ _ _).last _) x
    rw [last_append_ne hl.1.symm, view_append_ne hl.1.symm]; exact Nat.le_refl _
  · show _ ≤ (s.mem.append _ _ _).view _ ((s.mem.append _ _ _).last _) x
    rw [last_append_ne hl.2.1.symm, view_append_ne hl.2.1.symm]; exact Nat.le_refl _
  · exact a.store (b t) _ _ _
  · exact upd_all (P := fun _ y => TWf _ y) ((b t).bump _ _ _) (fun u => (b u).append _ _ _)

theorem rmwRel_last (m : Mem Loc) (tv : TV Loc) (l : Loc) (v : Int) (y x : Loc) :
    m.view y (m.last y) x ≤ (m.rmwRel tv l v).view y ((m.rmwRel tv l v).last y) x := by
  show _ ≤ (m.append _ _ _).view _ ((m.append _ _ _).last _) x
  by_cases e : y = l
  · subst e; rw [last_append_same, view_append_same]; simp only [join]; omega
  · rw [last_append_ne e, view_append_ne e]; exact Nat.le_refl _

theorem TWf.rmwRel {m : Mem Loc} {tv : TV Loc} (ht : TWf m tv) (h : MWf m) (l : Loc) (v : Int) : TWf (m.rmwRel tv l v) (tv.rmwRel m l) :=
  have hi : m.last l < m.len l := Nat.sub_lt (h.pos l) Nat.one_pos
  (ht.read h false hi).bump l v _

theorem MWf.rmwRel {m : Mem Loc} {tv : TV Loc} (h : MWf m) (ht : TWf m tv) (l : Loc) (v : Int) : MWf (m.rmwRel tv l v) := by
  have hi : m.last l < m.len l := Nat.sub_lt (h.pos l) Nat.one_pos
  apply h.append
  · intro x; have := (ht.msg_le l true).1 x; have := h.msg l _ hi x; simp only [join]; omega
  · intro x hx; have := (ht.msg_le l true).2 x hx; have := h.msg l _ hi x; simp only [join]; omega

/-- A release read-modify-write. -/
theorem Grow.rmw (s : St) (b : TWf s.mem (s.tv t)) : Grow s.mem s.tv (s.rmw t l v).mem (s.rmw t l v).tv := by
  refine ⟨fun x => Mem.len_le_append _ _ _ _ x, fun u x => ?_, rmwRel_last _ _ l v _, rmwRel_last _ _ l v _, fun k hk => view_append_old hk,
    fun a b => ⟨MWf.rmwRel a (b t) _ _, ?_⟩⟩
  · refine upd_all (P := fun u (y : TV Loc) => (s.tv u).cur x ≤ y.cur x) ?_ (fun _ => Nat.le_refl _) u
    have := b.cur x
    simp only [TV.rmwRel, TV.bump, TV.read]; split
    · subst_vars; omega
    · omega
  · exact upd_all (P := fun _ y => TWf _ y) (TWf.rmwRel (b t) a _ _) (fun u => (b u).append _ _ _)

/-- An acquire load. -/
theorem Grow.look (s : St) (h : k < s.mem.len l) : Grow s.mem s.tv (s.look t l k).mem (s.look t l k).tv := by
  refine ⟨fun _ => Nat.le_refl _, fun u x => ?_, fun _ => Nat.le_refl _, fun _ => Nat.le_refl _, fun _ _ => rfl, fun a b => ⟨a, ?_⟩⟩
  · refine upd_all (P := fun u (y : TV Loc) => (s.tv u).cur x ≤ y.cur x) ?_ (fun _ => Nat.le_refl _) u
    simp only [TV.read]; omega
  · exact upd_all (P := fun _ y => TWf _ y) ((b t).read a true h) b

theorem Grow.learn (s : St) (t u : Nat) : Grow s.mem s.tv (s.learn t u).mem (s.learn t u).tv := by
  refine ⟨fun _ => Nat.le_refl _, fun u' x => ?_, fun _ => Nat.le_refl _, fun _ => Nat.le_refl _, fun _ _ => rfl, fun a b => ⟨a, ?_⟩⟩
  · refine upd_all (P := fun u' (y : TV Loc) => (s.tv u').cur x ≤ y.cur x) ?_ (fun _ => Nat.le_refl _) u'
    simp only [join]; omega
  · exact upd_all (P := fun _ y => TWf _ y) ((b t).sync (b u).cur) b

/-- What the threads know. -/
structure IB (N : Nat) (s : St) : Prop where
  wm : MWf s.mem
  wt : ∀ t, TWf s.mem (s.tv t)
  own : ∀ i, i < N → 2 ≤ ph (s.wpc i) → 1 ≤ (s.tv i).cur (.ctx i)
  own2 : ∀ i, i < N → 10 ≤ ph (s.wpc i) → 2 ≤ (s.tv i).cur (.ctx i)
  sview : ∀ i, i < N → 3 ≤ ph (s.wpc i) → 1 ≤ s.mem.view .start (s.mem.last .start) (.ctx i)
  know : ∀ i, i < N → 4 ≤ ph (s.wpc i) → ∀ j, j < N → 1 ≤ (s.tv i).cur (.ctx j)
  mknow : 3 ≤ mph s.mpc → ∀ j, j < N → 1 ≤ (s.tv N).cur (.ctx j)
  rown : ∀ t j, s.mem.len (.rd t j) ≤ (s.tv t).cur (.rd t j) + 1
  fview : ∀ k, 1 ≤ k → k < s.mem.len .flag → ∀ j, s.mem.len (.rd N j) ≤ s.mem.view .flag k (.rd N j) + 1
  mrd : ∀ i, i < N → 5 ≤ ph (s.wpc i) → ∀ j, s.mem.len (.rd N j) ≤ (s.tv i).cur (.rd N j) + 1
  tview : ∀ i, i < N → 8 ≤ ph (s.wpc i) → ∀ j, s.mem.len (.rd i j) ≤ s.mem.view .stopL (s.mem.last .stopL) (.rd i j) + 1
  tviewN : ∀ i, i < N → 8 ≤ ph (s.wpc i) → ∀ j, s.mem.len (.rd N j) ≤ s.mem.view .stopL (s.mem.last .stopL) (.rd N j) + 1
  rknow : ∀ i, i < N → 9 ≤ ph (s.wpc i) → ∀ t, t ≤ N → ∀ j, s.mem.len (.rd t j) ≤ (s.tv i).cur (.rd t j) + 1

theorem IB.init (N : Nat) : IB N (.init N) := by
  refine ⟨MWf.init _, fun _ => TWf.init _, ?_, ?_, ?_, ?_, ?_, ?_, ?_, ?_, ?_, ?_, ?_⟩ <;>
    simp [St.init, Mem.init, TV.init, ph, mph]

/-- A step that does not use a context: worker `i` may have moved on by one. -/
theorem IB.move {N : Nat} {s s' : St} (i : Nat) (b : IB N s) (g : Grow s.mem s.tv s'.mem s'.tv)
    (hr : ∀ t j, s'.mem.len (.rd t j) = s.mem.len (.rd t j))
    (hw : ∀ j, j < N → ph (s'.wpc j) ≤ ph (s.wpc j) ∨ (j = i ∧ ph (s'.wpc j) = ph (s.wpc j) + 1))
    (o2 : i < N → ph (s'.wpc i) = 2 → 1 ≤ (s'.tv i).cur (.ctx i))
    (o10 : i < N → ph (s'.wpc i) = 10 → 2 ≤ (s'.tv i).cur (.ctx i))
    (o3 : i < N → ph (s'.wpc i) = 3 → 1 ≤ s'.mem.view .start (s'.mem.last .start) (.ctx i))
    (o4 : i < N → ph (s'.wpc i) = 4 → ∀ j, j < N → 1 ≤ (s'.tv i).cur (.ctx j))
    (om : 3 ≤ mph s'.mpc → 3 ≤ mph s.mpc ∨ ∀ j, j < N → 1 ≤ (s'.tv N).cur (.ctx j))
    (of : ∀ k, s.mem.len .flag ≤ k → k < s'.mem.len .flag → ∀ j, s.mem.len (.rd N j) ≤ s'.mem.view .flag k (.rd N j) + 1)
    (o5 : i < N → ph (s'.wpc i) = 5 → ∀ j, s.mem.len (.rd N j) ≤ (s'.tv i).cur (.rd N j) + 1)
    (o8 : i < N → ph (s'.wpc i) = 8 → ∀ j, s.mem.len (.rd i j) ≤ s'.mem.view .stopL (s'.mem.last .stopL) (.rd i j) + 1 ∧
      s.mem.len (.rd N j) ≤ s'.mem.view .stopL (s'.mem.last .stopL) (.rd N j) + 1)
    (o9 : i < N → ph (s'.wpc i) = 9 → ∀ t, t ≤ N → ∀ j, s.mem.len (.rd t j) ≤ (s'.tv i).cur (.rd t j) + 1) : IB N s' := by
  have nw : ∀ n, ∀ j, j < N → n ≤ ph (s'.wpc j) → n ≤ ph (s.wpc j) ∨ (j = i ∧ ph (s'.wpc i) = n) := fun n j hj e => by
    rcases hw j hj with h | ⟨rfl, h⟩
    · left; omega
    · by_cases e' : n ≤ ph (s.wpc j)
      · exact .inl e'
      · right; exact ⟨rfl, by omega⟩
  obtain ⟨w1, w2⟩ := g.wf b.wm b.wt
  refine ⟨w1, w2, ?_, ?_, ?_, ?_, ?_, ?_, ?_, ?_, ?_, ?_, ?_⟩
  · intro j hj e
    rcases nw _ j hj e with e | ⟨rfl, e⟩
    · exact Nat.le_trans (b.own j hj e) (g.cur _ _)
    · exact o2 hj e
  · intro j hj e
    rcases nw _ j hj e with e | ⟨rfl, e⟩
    · exact Nat.le_trans (b.own2 j hj e) (g.cur _ _)
    · exact o10 hj e
  · intro j hj e
    rcases nw _ j hj e with e | ⟨rfl, e⟩
    · exact Nat.le_trans (b.sview j hj e) (g.sv _)
    · exact o3 hj e
  · intro j hj e k hk
    rcases nw _ j hj e with e | ⟨rfl, e⟩
    · exact Nat.le_trans (b.know j hj e k hk) (g.cur _ _)
    · exact o4 hj e k hk
  · intro e j hj
    rcases om e with e | e
    · exact Nat.le_trans (b.mknow e j hj) (g.cur _ _)
    · exact e j hj
  · intro t j; rw [hr]; exact Nat.le_trans (b.rown t j) (Nat.succ_le_succ (g.cur _ _))
  · intro k h1 hk j
    rw [hr]
    by_cases e : k < s.mem.len .flag
    · rw [g.fv k e]; exact b.fview k h1 e j
    · exact of k (by omega) hk j
  · intro j hj e k
    rw [hr]
    rcases nw _ j hj e with e | ⟨rfl, e⟩
    · exact Nat.le_trans (b.mrd j hj e k) (Nat.succ_le_succ (g.cur _ _))
    · exact o5 hj e k
  · intro j hj e k
    rw [hr]
    rcases nw _ j hj e with e | ⟨rfl, e⟩
    · exact Nat.le_trans (b.tview j hj e k) (Nat.succ_le_succ (g.lv _))
    · exact (o8 hj e k).1
  · intro j hj e k
    rw [hr]
    rcases nw _ j hj e with e | ⟨rfl, e⟩
    · exact Nat.le_trans (b.tviewN j hj e k) (Nat.succ_le_succ (g.lv _))
    · exact (o8 hj e k).2
  · intro j hj e t ht k
    rw [hr]
    rcases nw _ j hj e with e | ⟨rfl, e⟩
    · exact Nat.le_trans (b.rknow j hj e t ht k) (Nat.succ_le_succ (g.cur _ _))
    · exact o9 hj e t ht k

/-- Everybody is past the second latch once somebody is. -/
theorem IA.all8 {N : Nat} {s : St} (a : IA N s) {i : Nat} (hi : i < N) (h : 9 ≤ ph (s.wpc i)) {j : Nat} (hj : j < N) : 8 ≤ ph (s.wpc j) := by
  have := a.past2 i hi h; have := a.tl
  exact cnt_all (by omega) hj

theorem IA.all3 {N : Nat} {s : St} (a : IA N s) (h : N + 2 ≤ s.mem.len .start) {j : Nat} (hj : j < N) : 3 ≤ ph (s.wpc j) := by
  have := a.sl
  exact cnt_all (by split at this <;> omega) hj

/-- Thread `t` uses the context of worker `j`. -/
theorem IB.useCtx {N : Nat} {s : St} (b : IB N s) (a : IA N s) {t : Nat} (j : Nat)
    (ht : t = N ∧ mph s.mpc ≤ 4 ∨ t < N ∧ 4 ≤ ph (s.wpc t) ∧ ph (s.wpc t) ≤ 5) (p : MPc) (hp : mph p = mph s.mpc) (gt : List Int) :
    IB N { (s.write t (.rd t j) 0).m p with got := gt } := by
  have g : Grow s.mem s.tv _ _ := Grow.write (t := t) (l := .rd t j) (v := 0) s (b.wt t) (by simp)
  obtain ⟨w1, w2⟩ := g.wf b.wm b.wt
  have hl : ∀ u k, ¬ (u = t) → (s.write t (.rd t j) 0).mem.len (.rd u k) = s.mem.len (.rd u k) := fun u k hu => by
    show (s.mem.append _ _ _).len _ = _
    rw [Mem.len_append, if_neg]; simp [hu]
  have nf : t = N → s.mem.len .flag = 1 := fun e => by
    have h1 := a.fm; have h2 := a.fl
    rcases ht with ⟨_, h⟩ | ⟨h, _⟩ <;> omega
  have n5 : t = N → ∀ i, i < N → ¬ 5 ≤ ph (s.wpc i) := fun e i hi h5 => by
    have := a.seen i hi h5; have := nf e; omega
  have n9 : ∀ i, i < N → ¬ 9 ≤ ph (s.wpc i) := fun i hi h9 => by
    rcases ht with ⟨rfl, _⟩ | ⟨h, h4, h5⟩
    · exact n5 rfl i hi (by omega)
    · have := a.all8 hi h9 h; omega
  refine ⟨w1, w2, fun i hi e => Nat.le_trans (b.own i hi e) (g.cur _ _), fun i hi e => Nat.le_trans (b.own2 i hi e) (g.cur _ _),
    fun i hi e => Nat.le_trans (b.sview i hi e) (g.sv _), fun i hi e k hk => Nat.le_trans (b.know i hi e k hk) (g.cur _ _),
    fun e k hk => ?_, fun u k => ?_, fun k h1 hk j' => ?_, fun i hi e j' => ?_, fun i hi e j' => ?_, fun i hi e j' => ?_, fun i hi e => absurd e (n9 i hi)⟩
  · replace e : 3 ≤ mph p := e
    rw [hp] at e
    exact Nat.le_trans (b.mknow e k hk) (g.cur _ _)
  · show (s.write t (.rd t j) 0).mem.len _ ≤ ((s.write t (.rd t j) 0).tv u).cur _ + 1
    by_cases e : u = t
    · subst e
      have := b.rown u k
      simp only [St.write, Mem.store, upd_same, TV.bump, Mem.len_append]
      split <;> simp_all
    · rw [hl u k e]; exact Nat.le_trans (b.rown u k) (Nat.succ_le_succ (g.cur _ _))
  · show (s.write t (.rd t j) 0).mem.len _ ≤ _
    have hk' : k < s.mem.len .flag := hk
    have hn : ¬ (N = t) := fun e => by have := nf e.symm; omega
    rw [hl N j' hn]
    exact b.fview k h1 hk' j'
  · show (s.write t (.rd t j) 0).mem.len _ ≤ _
    have hn : ¬ (N = t) := fun h => n5 h.symm i hi e
    rw [hl N j' hn]
    exact Nat.le_trans (b.mrd i hi e j') (Nat.succ_le_succ (g.cur _ _))
  · show (s.write t (.rd t j) 0).mem.len _ ≤ _
    have e' : 8 ≤ ph (s.wpc i) := e
    have hn : ¬ (i = t) := fun h => by
      subst h
      rcases ht with ⟨h, _⟩ | ⟨_, _, h⟩ <;> omega
    rw [hl i j' hn]
    exact Nat.le_trans (b.tview i hi e j') (Nat.succ_le_succ (g.lv _))
  · show (s.write t (.rd t j) 0).mem.len _ ≤ _
    have e' : 8 ≤ ph (s.wpc i) := e
    have hn : ¬ (N = t) := fun h => n5 h.symm i hi (by omega)
    rw [hl N j' hn]
    exact Nat.le_trans (b.tviewN i hi e j') (Nat.succ_le_succ (g.lv _))

end Verif.Weak.Start
