import Verif.Weak.StartViews

/-! C50: every step keeps the invariants. -/
namespace Verif.Weak.Start

theorem IA.noFin {N : Nat} {s : St} (a : IA N s) {t : Nat} (ht : t < N) (h : ph (s.wpc t) ≤ 7) {j : Nat} (hj : j < N) : ph (s.wpc j) ≤ 8 := by
  by_cases e : 9 ≤ ph (s.wpc j)
  · have := a.all8 hj e ht; omega
  · omega

/-- A context that is initialised and not finalised. -/
theorem IA.live {N : Nat} {s : St} (a : IA N s) {j : Nat} (hj : j < N) (h : 2 ≤ ph (s.wpc j)) (h' : ph (s.wpc j) ≤ 9) :
    s.mem.len (.ctx j) = 2 ∧ s.val (.ctx j) = (j : Int) + 1 := by
  have h1 := a.cl j hj
  rw [if_neg (by omega), if_pos (by omega)] at h1
  refine ⟨h1, ?_⟩
  unfold St.val Mem.last; rw [h1]; exact a.cv j hj h

theorem knows_of {N : Nat} {s : St} (b : IB N s) {t : Nat} {l : Loc} (h : s.mem.len l ≤ (s.tv t).cur l + 1) : s.knows t l := by
  have := (b.wt t).cur l
  unfold St.knows Mem.last; omega

theorem ctxOk {N : Nat} {s : St} (a : IA N s) (b : IB N s) {t j : Nat} (hj : j < N)
    (ht : t = N ∧ 3 ≤ mph s.mpc ∧ mph s.mpc ≤ 4 ∨ t < N ∧ 4 ≤ ph (s.wpc t) ∧ ph (s.wpc t) ≤ 5) :
    s.knows t (.ctx j) ∧ s.val (.ctx j) = (j : Int) + 1 := by
  have hp : N + 2 ≤ s.mem.len .start := by
    rcases ht with ⟨_, h, _⟩ | ⟨h, h4, _⟩
    · exact a.mpast h
    · exact a.past t h h4
  have h3 := a.all3 hp hj
  have h9 : ph (s.wpc j) ≤ 9 := by
    rcases ht with ⟨_, _, h⟩ | ⟨h, _, h5⟩
    · by_cases e : 5 ≤ ph (s.wpc j)
      · have := a.fm (a.seen j hj e); omega
      · omega
    · have := a.noFin h (by omega) hj; omega
  obtain ⟨h1, h2⟩ := a.live hj (by omega) h9
  refine ⟨knows_of b ?_, h2⟩
  rcases ht with ⟨rfl, h, _⟩ | ⟨h, h4, _⟩
  · have := b.mknow h j hj; omega
  · have := b.know t h h4 j hj; omega

theorem finOk {N : Nat} {s : St} (a : IA N s) (b : IB N s) {i : Nat} (hi : i < N) (h : s.wpc i = .fin) :
    s.knows i (.ctx i) ∧ ∀ t, t ≤ N → s.knows i (.rd t i) := by
  have hp : ph (s.wpc i) = 9 := by rw [h]; rfl
  obtain ⟨h1, h2⟩ := a.live hi (by omega) (by omega)
  refine ⟨knows_of b ?_, fun t ht => knows_of b (b.rknow i hi (by omega) t ht i)⟩
  have := b.own i hi (by omega); omega

theorem initOk {N : Nat} {s : St} (a : IA N s) (b : IB N s) {i : Nat} (hi : i < N) (h : s.wpc i = .init) : s.knows i (.ctx i) := by
  have hp : ph (s.wpc i) = 1 := by rw [h]; rfl
  have := a.cl i hi
  rw [if_pos (by omega)] at this
  exact knows_of b (by omega)

/-- The owner's bookkeeping. -/
structure IC (N : Nat) (s : St) : Prop where
  ub : s.ub = false
  fg : 5 ≤ mph s.mpc → 1 < s.mem.len .flag
  fz : ∀ k, 1 ≤ k → k < s.mem.len .flag → s.mem.val .flag k = 1
  bn : ∀ k, s.mpc = .spawn k → ∀ i, i < k → s.wpc i ≠ .unborn
  rd : ∀ k, s.mpc = .read k → k ≤ N ∧ s.got = (List.range k).map fun i : Nat => (i : Int) + 1
  up : 4 ≤ mph s.mpc → s.got = (List.range N).map fun i : Nat => (i : Int) + 1
  early : mph s.mpc < 3 → s.got = []
  jn : ∀ k, s.mpc = .join k → k ≤ N ∧ ∀ i, i < k → s.wpc i = .done ∧ ∀ l, (s.tv i).cur l ≤ (s.tv N).cur l
  gn : s.mpc = .gone → ∀ i, i < N → s.wpc i = .done ∧ ∀ l, (s.tv i).cur l ≤ (s.tv N).cur l

theorem IC.init (N : Nat) : IC N (.init N) := by
  constructor <;> simp [St.init, Mem.init, mph]
  intro k; omega

/-- A worker that is not done makes a step. -/
theorem IC.worker {N : Nat} {s s' : St} (c : IC N s) {i : Nat} (hi : i < N) (h : s.wpc i ≠ .done) (hm : s'.mpc = s.mpc) (hg : s'.got = s.got)
    (hu : s'.ub = s.ub) (hn : s'.wpc i ≠ .unborn)
    (hf : s.mem.len .flag ≤ s'.mem.len .flag) (hz : ∀ k, k < s'.mem.len .flag → s'.mem.val .flag k = s.mem.val .flag k ∧ k < s.mem.len .flag ∨ s'.mem.val .flag k = 1)
    (hw : ∀ j, j ≠ i → s'.wpc j = s.wpc j) (ht : ∀ j, j ≠ i → s'.tv j = s.tv j) : IC N s' := by
  refine ⟨hu.trans c.ub, fun e => Nat.lt_of_lt_of_le (c.fg (hm ▸ e)) hf, fun k h1 hk => ?_, fun k hk j hj => ?_, by rw [hm, hg]; exact c.rd, by rw [hm, hg]; exact c.up, by rw [hm, hg]; exact c.early, fun k hk => ?_, fun hk j hj => ?_⟩
  · rcases hz k hk with ⟨e, e'⟩ | e
    · rw [e]; exact c.fz k h1 e'
    · exact e
  · by_cases e : j = i
    · subst e; exact hn
    · rw [hw j e]; exact c.bn k (hm ▸ hk) j hj
  · rw [hm] at hk
    obtain ⟨h1, h2⟩ := c.jn k hk
    refine ⟨h1, fun j hj => ?_⟩
    obtain ⟨h3, h4⟩ := h2 j hj
    have hji : j ≠ i := fun e => h (e ▸ h3)
    rw [hw j hji, ht j hji, ht N (by omega)]; exact ⟨h3, h4⟩
  · rw [hm] at hk
    obtain ⟨h3, h4⟩ := c.gn hk j hj
    have hji : j ≠ i := fun e => h (e ▸ h3)
    rw [hw j hji, ht j hji, ht N (by omega)]; exact ⟨h3, h4⟩

structure Inv (N : Nat) (s : St) : Prop where
  a : IA N s
  b : IB N s
  c : IC N s

theorem Inv.init (N : Nat) : Inv N (.init N) := ⟨.init N, .init N, .init N⟩

theorem phw (s : St) (i : Nat) (p : WPc) (j : Nat) : ph ((s.w i p).wpc j) = if j = i then ph p else ph (s.wpc j) := by
  show ph (upd _ _ _ _) = _
  unfold upd; split <;> rfl

theorem hwOf {N : Nat} (s : St) {i : Nat} {p : WPc} {w : Nat → WPc} (hs : w = s.wpc) (hp : ph p = ph (w i) + 1) :
    ∀ j, j < N → ph ((s.w i p).wpc j) ≤ ph (w j) ∨ (j = i ∧ ph ((s.w i p).wpc j) = ph (w j) + 1) := fun j _ => by
  subst hs
  rw [phw]; split
  · subst_vars; right; exact ⟨rfl, hp⟩
  · left; exact Nat.le_refl _

theorem rmw_len (s : St) (t : Nat) (l : Loc) (v : Int) (x : Loc) :
    (s.rmw t l v).mem.len x = if x = l then s.mem.len l + 1 else s.mem.len x := rfl
theorem write_len (s : St) (t : Nat) (l : Loc) (v : Int) (x : Loc) :
    (s.write t l v).mem.len x = if x = l then s.mem.len l + 1 else s.mem.len x := rfl
theorem rmw_val (s : St) (t : Nat) (l : Loc) (v : Int) (x : Loc) (k : Nat) :
    (s.rmw t l v).mem.val x k = if x = l ∧ k = s.mem.len l then v else s.mem.val x k := rfl
theorem write_val (s : St) (t : Nat) (l : Loc) (v : Int) (x : Loc) (k : Nat) :
    (s.write t l v).mem.val x k = if x = l ∧ k = s.mem.len l then v else s.mem.val x k := rfl

/-- The view of the message of a release read-modify-write. -/
theorem rmw_view {s : St} {t : Nat} {l : Loc} {v : Int} {x : Loc} (h : x ≠ l) :
    (s.tv t).cur x ≤ (s.rmw t l v).mem.view l ((s.rmw t l v).mem.last l) x := by
  show _ ≤ (s.mem.append _ _ _).view _ ((s.mem.append _ _ _).last _) x
  rw [last_append_same, view_append_same]
  simp only [join, TV.msg, if_neg h, if_true]; omega

theorem rmw_view' {s : St} {t : Nat} {l : Loc} {v : Int} {x : Loc} (h : x ≠ l) :
    (s.tv t).cur x ≤ (s.rmw t l v).mem.view l (s.mem.len l) x := by
  show _ ≤ (s.mem.append _ _ _).view _ _ x
  rw [view_append_same]
  simp only [join, TV.msg, if_neg h, if_true]; omega

theorem look_cur (s : St) (t : Nat) (l : Loc) (k : Nat) (x : Loc) : s.mem.view l k x ≤ ((s.look t l k).tv t).cur x := by
  simp only [St.look, upd_same, TV.read, if_true]; omega

/-- The counter of the latches. -/
theorem dec_val {s : St} {t : Nat} {l : Loc} {c : Int} (hv : ∀ k, k < s.mem.len l → s.mem.val l k = c - k) (hp : 0 < s.mem.len l) :
    ∀ k, k < (s.rmw t l (s.val l - 1)).mem.len l → (s.rmw t l (s.val l - 1)).mem.val l k = c - k := fun k hk => by
  rw [rmw_len, if_pos rfl] at hk
  rw [rmw_val]
  split
  · rename_i e
    have := hv (s.mem.last l) (by unfold Mem.last; omega)
    unfold St.val; rw [this, e.2]; unfold Mem.last; omega
  · rename_i e; exact hv k (by simp only [true_and] at e; omega)

/-- No change of the flag. -/
theorem sameF {m m' : Mem Loc} (h : m'.len .flag = m.len .flag) (hv : m'.val .flag = m.val .flag) :
    ∀ k, k < m'.len .flag → m'.val .flag k = m.val .flag k ∧ k < m.len .flag ∨ m'.val .flag k = 1 := fun k hk =>
  .inl ⟨by rw [hv], by rw [← h]; exact hk⟩

end Verif.Weak.Start
