import Verif.Weak.StartStep

/-! C50: every step keeps the invariants (2). -/
namespace Verif.Weak.Start

variable {N : Nat} {s : St}

theorem I.init {i : Nat} (v : Inv N s) (hi : i < N) (h : s.wpc i = .init) : Inv N ((s.write i (.ctx i) (i + 1)).w i .arrive) := by
  obtain ⟨a, b, c⟩ := v
  have hp : ph (s.wpc i) = 1 := by rw [h]; rfl
  have cl := a.cl i hi
  rw [if_pos (by omega)] at cl
  refine ⟨?_, ?_, ?_⟩
  · refine IA.worker (p := .arrive) a hi (by omega) (by rw [hp]; rfl) rfl rfl rfl rfl (Nat.le_refl _) ?_ (fun h => h) (fun j => ?_) (fun k hk => ?_) (fun k hk => ?_)
      (fun j hj e => ?_) nofun nofun nofun
    · show (s.write _ _ _).mem.val _ _ = _
      rw [write_val]; simp
    · show (s.write _ _ _).mem.len _ = _
      rw [write_len]; by_cases e : j = i
      · subst e; simp [ph]
      · simp [e]
    · show (s.write _ _ _).mem.val _ _ = _
      rw [write_val]; simp only [reduceCtorEq, false_and, if_false]; exact a.sv k hk
    · show (s.write _ _ _).mem.val _ _ = _
      rw [write_val]; simp only [reduceCtorEq, false_and, if_false]; exact a.tv k hk
    · show (s.write _ _ _).mem.val _ _ = _
      rw [write_val]
      by_cases ej : j = i
      · subst ej; simp [cl]
      · simp only [Loc.ctx.injEq, ej, false_and, if_false]
        exact a.cv j hj (e.resolve_right fun x => ej x.1)
  · refine b.move i (Grow.write s (b.wt i) (by simp)) (fun _ _ => rfl) (hwOf (s.write i (.ctx i) (i + 1)) rfl (by rw [hp]; rfl))
      (fun _ _ => ?_) ?_ ?_ ?_ .inl ?_ ?_ ?_ ?_
    · show 1 ≤ ((s.write i (.ctx i) (i + 1)).tv i).cur _
      simp only [St.write, upd_same, TV.bump, if_true, cl, Nat.le_refl]
    all_goals try (rw [phw, if_pos rfl]; intro _ h; simp [ph] at h)
    intro k h1 h2
    rw [show ((s.write i (.ctx i) (i + 1)).w i .arrive).mem.len .flag = s.mem.len .flag from rfl] at h2; omega
  · exact c.worker hi (by rw [h]; simp) rfl rfl rfl (by show upd _ _ _ _ ≠ _; rw [upd_same]; simp) (Nat.le_refl _) (sameF rfl (Mem.val_append_ne _ _ _ (by simp))) (fun j hj => upd_ne _ _ hj) (fun j hj => upd_ne _ _ hj)

theorem I.arrive {i : Nat} (v : Inv N s) (hi : i < N) (h : s.wpc i = .arrive) : Inv N ((s.rmw i .start (s.val .start - 1)).w i .wait) := by
  obtain ⟨a, b, c⟩ := v
  have hp : ph (s.wpc i) = 2 := by rw [h]; rfl
  refine ⟨?_, ?_, ?_⟩
  · refine IA.worker (p := .wait) a hi (by omega) (by rw [hp]; rfl) rfl rfl rfl rfl (Nat.le_refl _) ?_ (fun h => h) (fun j => ?_)
      (dec_val a.sv (b.wm.pos _)) (fun k hk => ?_) (fun j hj e => ?_) nofun nofun nofun
    · show (s.rmw _ _ _).mem.val _ _ = _
      rw [rmw_val]; simp
    · show (s.rmw _ _ _).mem.len _ = _
      rw [rmw_len]; simp [ph]
    · show (s.rmw _ _ _).mem.val _ _ = _
      rw [rmw_val]; simp only [reduceCtorEq, false_and, if_false]; exact a.tv k hk
    · show (s.rmw _ _ _).mem.val _ _ = _
      rw [rmw_val]; simp only [reduceCtorEq, false_and, if_false]
      exact a.cv j hj (e.resolve_right fun x => by simp [ph] at x)
  · refine b.move i (Grow.rmw s (b.wt i)) (fun _ _ => rfl) (hwOf (s.rmw _ _ _) rfl (by rw [hp]; rfl))
      ?_ ?_ (fun _ _ => ?_) ?_ .inl ?_ ?_ ?_ ?_
    all_goals try (rw [phw, if_pos rfl]; intro _ h; simp [ph] at h)
    · exact Nat.le_trans (b.own i hi (by omega)) (rmw_view (by simp))
    · intro k h1 h2
      rw [show ((s.rmw i .start (s.val .start - 1)).w i .wait).mem.len .flag = s.mem.len .flag from rfl] at h2; omega
  · exact c.worker hi (by rw [h]; simp) rfl rfl rfl (by show upd _ _ _ _ ≠ _; rw [upd_same]; simp) (Nat.le_refl _) (sameF rfl (Mem.val_append_ne _ _ _ (by simp))) (fun j hj => upd_ne _ _ hj) (fun j hj => upd_ne _ _ hj)

/-- Zero is read from the last message of the latch. -/
theorem zeroS (a : IA N s) {k : Nat} (hk : k < s.mem.len .start) (h0 : s.mem.val .start k = 0) :
    N + 2 ≤ s.mem.len .start ∧ k = s.mem.last .start := by
  have h1 := a.sv k hk
  have h2 := a.sl
  have h3 : cnt N 3 s.wpc ≤ N := Verif.EventCount.num_le _ _
  unfold Mem.last
  split at h2 <;> omega

theorem zeroT (a : IA N s) {k : Nat} (hk : k < s.mem.len .stopL) (h0 : s.mem.val .stopL k = 0) :
    N + 1 ≤ s.mem.len .stopL ∧ k = s.mem.last .stopL := by
  have h1 := a.tv k hk
  have h2 := a.tl
  have h3 : cnt N 8 s.wpc ≤ N := Verif.EventCount.num_le _ _
  unfold Mem.last
  omega

/-- A worker step that does not write. -/
theorem IA.read {i : Nat} {l : Loc} {k : Nat} (a : IA N s) (hi : i < N) (h0 : 1 ≤ ph (s.wpc i)) {p : WPc} (hp : ph p = ph (s.wpc i) + 1)
    (h3 : ph p ≠ 2 ∧ ph p ≠ 3 ∧ ph p ≠ 8 ∧ ph p ≠ 10)
    (g1 : ph p = 4 → N + 2 ≤ s.mem.len .start) (g2 : ph p = 5 → 1 < s.mem.len .flag) (g3 : ph p = 9 → N + 1 ≤ s.mem.len .stopL) :
    IA N ((s.look i l k).w i p) := by
  refine IA.worker (p := p) a hi h0 hp rfl rfl ?_ ?_ (Nat.le_refl _) rfl (fun h => h) (fun j => ?_) a.sv a.tv
    (fun j hj e => a.cv j hj (e.resolve_right fun x => h3.1 x.2)) g1 g2 g3
  · rw [if_neg h3.2.1]; rfl
  · rw [if_neg h3.2.2.1]; rfl
  · rw [if_neg (fun x => x.2.elim h3.1 h3.2.2.2)]; rfl

theorem I.wake {i k : Nat} (v : Inv N s) (hi : i < N) (h : s.wpc i = .wait) (hr : CanRead s.mem (s.tv i) .start k) (h0 : s.mem.val .start k = 0) :
    Inv N ((s.look i .start k).w i .loop) := by
  obtain ⟨a, b, c⟩ := v
  have hp : ph (s.wpc i) = 3 := by rw [h]; rfl
  obtain ⟨z1, z2⟩ := zeroS a hr.2 h0
  refine ⟨?_, ?_, ?_⟩
  · exact a.read hi (by omega) (by rw [hp]; rfl) (by simp [ph]) (fun _ => z1) nofun nofun
  · refine b.move i (Grow.look s hr.2) (fun _ _ => rfl) (hwOf (s.look _ _ _) rfl (by rw [hp]; rfl))
      ?_ ?_ ?_ (fun _ _ j hj => ?_) .inl ?_ ?_ ?_ ?_
    all_goals try (rw [phw, if_pos rfl]; intro _ h; simp [ph] at h)
    · refine Nat.le_trans ?_ (look_cur s i .start k (.ctx j))
      rw [z2]; exact b.sview j hj (a.all3 z1 hj)
    · intro k' h1 h2
      rw [show ((s.look i .start k).w i .loop).mem.len .flag = s.mem.len .flag from rfl] at h2; omega
  · exact c.worker hi (by rw [h]; simp) rfl rfl rfl (by show upd _ _ _ _ ≠ _; rw [upd_same]; simp) (Nat.le_refl _) (sameF rfl rfl) (fun j hj => upd_ne _ _ hj) (fun j hj => upd_ne _ _ hj)

theorem I.see {i k : Nat} (v : Inv N s) (hi : i < N) (h : s.wpc i = .loop) (hr : CanRead s.mem (s.tv i) .flag k) (h0 : s.mem.val .flag k ≠ 0) :
    Inv N ((s.look i .flag k).w i .drain) := by
  obtain ⟨a, b, c⟩ := v
  have hp : ph (s.wpc i) = 4 := by rw [h]; rfl
  have hk : 1 ≤ k := by
    rcases Nat.eq_zero_or_pos k with e | e
    · subst e; exact absurd a.fv h0
    · exact e
  have hr2 := hr.2
  refine ⟨?_, ?_, ?_⟩
  · exact a.read hi (by omega) (by rw [hp]; rfl) (by simp [ph]) nofun (fun _ => by omega) nofun
  · refine b.move i (Grow.look s hr.2) (fun _ _ => rfl) (hwOf (s.look _ _ _) rfl (by rw [hp]; rfl))
      ?_ ?_ ?_ ?_ .inl ?_ (fun _ _ j => ?_) ?_ ?_
    all_goals try (rw [phw, if_pos rfl]; intro _ h; simp [ph] at h)
    · intro k' h1 h2
      rw [show ((s.look i .flag k).w i .drain).mem.len .flag = s.mem.len .flag from rfl] at h2; omega
    · exact Nat.le_trans (b.fview k hk hr.2 j) (Nat.succ_le_succ (look_cur s i .flag k (.rd N j)))
  · exact c.worker hi (by rw [h]; simp) rfl rfl rfl (by show upd _ _ _ _ ≠ _; rw [upd_same]; simp) (Nat.le_refl _) (sameF rfl rfl) (fun j hj => upd_ne _ _ hj) (fun j hj => upd_ne _ _ hj)

theorem I.wake2 {i k : Nat} (v : Inv N s) (hi : i < N) (h : s.wpc i = .wait2) (hr : CanRead s.mem (s.tv i) .stopL k) (h0 : s.mem.val .stopL k = 0) :
    Inv N ((s.look i .stopL k).w i .fin) := by
  obtain ⟨a, b, c⟩ := v
  have hp : ph (s.wpc i) = 8 := by rw [h]; rfl
  obtain ⟨z1, z2⟩ := zeroT a hr.2 h0
  have all : ∀ j, j < N → 8 ≤ ph (s.wpc j) := fun j hj => by
    have := a.tl; exact cnt_all (by omega) hj
  refine ⟨?_, ?_, ?_⟩
  · exact a.read hi (by omega) (by rw [hp]; rfl) (by simp [ph]) nofun nofun (fun _ => z1)
  · refine b.move i (Grow.look s hr.2) (fun _ _ => rfl) (hwOf (s.look _ _ _) rfl (by rw [hp]; rfl))
      ?_ ?_ ?_ ?_ .inl ?_ ?_ ?_ (fun _ _ t ht j => ?_)
    all_goals try (rw [phw, if_pos rfl]; intro _ h; simp [ph] at h)
    · intro k' h1 h2
      rw [show ((s.look i .stopL k).w i .fin).mem.len .flag = s.mem.len .flag from rfl] at h2; omega
    · refine Nat.le_trans ?_ (Nat.succ_le_succ (look_cur s i .stopL k (.rd t j)))
      rw [z2]
      by_cases e : t = N
      · subst e; exact b.tviewN i hi (by omega) j
      · exact b.tview t (by omega) (all t (by omega)) j
  · exact c.worker hi (by rw [h]; simp) rfl rfl rfl (by show upd _ _ _ _ ≠ _; rw [upd_same]; simp) (Nat.le_refl _) (sameF rfl rfl) (fun j hj => upd_ne _ _ hj) (fun j hj => upd_ne _ _ hj)

theorem I.leave {i : Nat} (v : Inv N s) (hi : i < N) (h : s.wpc i = .drain) : Inv N (s.w i .leave) := by
  obtain ⟨a, b, c⟩ := v
  have hp : ph (s.wpc i) = 5 := by rw [h]; rfl
  refine ⟨?_, ?_, ?_⟩
  · exact IA.worker (p := .leave) a hi (by omega) (by rw [hp]; rfl) rfl rfl rfl rfl (Nat.le_refl _) rfl (fun h => h) (fun j => by simp [ph]; rfl) a.sv a.tv
      (fun j hj e => a.cv j hj (e.resolve_right fun x => by simp [ph] at x)) nofun nofun nofun
  · refine b.move i (Grow.refl _ _) (fun _ _ => rfl) (hwOf s rfl (by rw [hp]; rfl))
      ?_ ?_ ?_ ?_ .inl ?_ ?_ ?_ ?_
    all_goals try (rw [phw, if_pos rfl]; intro _ h; simp [ph] at h)
    · intro k' h1 h2
      rw [show (s.w i .leave).mem.len .flag = s.mem.len .flag from rfl] at h2; omega
  · exact c.worker hi (by rw [h]; simp) rfl rfl rfl (by show upd _ _ _ _ ≠ _; rw [upd_same]; simp) (Nat.le_refl _) (sameF rfl rfl) (fun j hj => upd_ne _ _ hj) (fun j hj => rfl)

theorem I.flag {i : Nat} (v : Inv N s) (hi : i < N) (h : s.wpc i = .leave) : Inv N ((s.rmw i .flag 1).w i .arrive2) := by
  obtain ⟨a, b, c⟩ := v
  have hp : ph (s.wpc i) = 6 := by rw [h]; rfl
  have hs := a.seen i hi (by omega)
  have hl : ((s.rmw i .flag 1).w i .arrive2).mem.len .flag = s.mem.len .flag + 1 := by
    show (s.rmw _ _ _).mem.len _ = _
    rw [rmw_len, if_pos rfl]
  refine ⟨?_, ?_, ?_⟩
  · refine IA.worker (p := .arrive2) a hi (by omega) (by rw [hp]; rfl) rfl rfl rfl rfl (by omega) ?_ (fun _ => hs) (fun j => ?_)
      (fun k hk => ?_) (fun k hk => ?_) (fun j hj e => ?_) nofun nofun nofun
    · show (s.rmw _ _ _).mem.val _ _ = _
      rw [rmw_val, if_neg (by omega)]
    · show (s.rmw _ _ _).mem.len _ = _
      rw [rmw_len]; simp [ph]
    · show (s.rmw _ _ _).mem.val _ _ = _
      rw [rmw_val]; simp only [reduceCtorEq, false_and, if_false]; exact a.sv k hk
    · show (s.rmw _ _ _).mem.val _ _ = _
      rw [rmw_val]; simp only [reduceCtorEq, false_and, if_false]; exact a.tv k hk
    · show (s.rmw _ _ _).mem.val _ _ = _
      rw [rmw_val]; simp only [reduceCtorEq, false_and, if_false]
      exact a.cv j hj (e.resolve_right fun x => by simp [ph] at x)
  · refine b.move i (Grow.rmw s (b.wt i)) (fun _ _ => rfl) (hwOf (s.rmw _ _ _) rfl (by rw [hp]; rfl))
      ?_ ?_ ?_ ?_ .inl (fun k h1 h2 j => ?_) ?_ ?_ ?_
    all_goals try (rw [phw, if_pos rfl]; intro _ h; simp [ph] at h)
    · rw [hl] at h2
      have : k = s.mem.len .flag := by omega
      subst this
      exact Nat.le_trans (b.mrd i hi (by omega) j) (Nat.succ_le_succ (rmw_view' (by simp)))
  · refine c.worker hi (by rw [h]; simp) rfl rfl rfl (by show upd _ _ _ _ ≠ _; rw [upd_same]; simp) (by omega) (fun k hk => ?_) (fun j hj => upd_ne _ _ hj) (fun j hj => upd_ne _ _ hj)
    rw [hl] at hk
    show (s.rmw i .flag 1).mem.val .flag k = _ ∧ _ ∨ (s.rmw i .flag 1).mem.val .flag k = _
    rw [rmw_val]
    by_cases e : k = s.mem.len .flag
    · right; rw [if_pos ⟨rfl, e⟩]
    · left; rw [if_neg (fun x => e x.2)]; exact ⟨rfl, by omega⟩

theorem I.arrive2 {i : Nat} (v : Inv N s) (hi : i < N) (h : s.wpc i = .arrive2) : Inv N ((s.rmw i .stopL (s.val .stopL - 1)).w i .wait2) := by
  obtain ⟨a, b, c⟩ := v
  have hp : ph (s.wpc i) = 7 := by rw [h]; rfl
  refine ⟨?_, ?_, ?_⟩
  · refine IA.worker (p := .wait2) a hi (by omega) (by rw [hp]; rfl) rfl rfl rfl rfl (Nat.le_refl _) ?_ (fun h => h) (fun j => ?_)
      (fun k hk => ?_) (dec_val a.tv (b.wm.pos _)) (fun j hj e => ?_) nofun nofun nofun
    · show (s.rmw _ _ _).mem.val _ _ = _
      rw [rmw_val]; simp
    · show (s.rmw _ _ _).mem.len _ = _
      rw [rmw_len]; simp [ph]
    · show (s.rmw _ _ _).mem.val _ _ = _
      rw [rmw_val]; simp only [reduceCtorEq, false_and, if_false]; exact a.sv k hk
    · show (s.rmw _ _ _).mem.val _ _ = _
      rw [rmw_val]; simp only [reduceCtorEq, false_and, if_false]
      exact a.cv j hj (e.resolve_right fun x => by simp [ph] at x)
  · refine b.move i (Grow.rmw s (b.wt i)) (fun _ _ => rfl) (hwOf (s.rmw _ _ _) rfl (by rw [hp]; rfl))
      ?_ ?_ ?_ ?_ .inl ?_ ?_ (fun _ _ j => ⟨?_, ?_⟩) ?_
    all_goals try (rw [phw, if_pos rfl]; intro _ h; simp [ph] at h)
    · intro k h1 h2
      rw [show ((s.rmw i .stopL (s.val .stopL - 1)).w i .wait2).mem.len .flag = s.mem.len .flag from rfl] at h2; omega
    · exact Nat.le_trans (b.rown i j) (Nat.succ_le_succ (rmw_view (by simp)))
    · exact Nat.le_trans (b.mrd i hi (by omega) j) (Nat.succ_le_succ (rmw_view (by simp)))
  · exact c.worker hi (by rw [h]; simp) rfl rfl rfl (by show upd _ _ _ _ ≠ _; rw [upd_same]; simp) (Nat.le_refl _) (sameF rfl (Mem.val_append_ne _ _ _ (by simp))) (fun j hj => upd_ne _ _ hj) (fun j hj => upd_ne _ _ hj)

theorem I.finalise {i : Nat} (v : Inv N s) (hi : i < N) (h : s.wpc i = .fin) : Inv N ((s.write i (.ctx i) 0).w i .done) := by
  obtain ⟨a, b, c⟩ := v
  have hp : ph (s.wpc i) = 9 := by rw [h]; rfl
  obtain ⟨cl, -⟩ := a.live hi (by omega) (by omega)
  refine ⟨?_, ?_, ?_⟩
  · refine IA.worker (p := .done) a hi (by omega) (by rw [hp]; rfl) rfl rfl rfl rfl (Nat.le_refl _) ?_ (fun h => h) (fun j => ?_) (fun k hk => ?_) (fun k hk => ?_)
      (fun j hj e => ?_) nofun nofun nofun
    · show (s.write _ _ _).mem.val _ _ = _
      rw [write_val]; simp
    · show (s.write _ _ _).mem.len _ = _
      rw [write_len]; by_cases e : j = i
      · subst e; simp [ph]
      · simp [e]
    · show (s.write _ _ _).mem.val _ _ = _
      rw [write_val]; simp only [reduceCtorEq, false_and, if_false]; exact a.sv k hk
    · show (s.write _ _ _).mem.val _ _ = _
      rw [write_val]; simp only [reduceCtorEq, false_and, if_false]; exact a.tv k hk
    · show (s.write _ _ _).mem.val _ _ = _
      rw [write_val, if_neg (by omega)]
      exact a.cv j hj (e.resolve_right fun x => by simp [ph] at x)
  · refine b.move i (Grow.write s (b.wt i) (by simp)) (fun _ _ => rfl) (hwOf (s.write i (.ctx i) 0) rfl (by rw [hp]; rfl))
      ?_ (fun _ _ => ?_) ?_ ?_ .inl ?_ ?_ ?_ ?_
    all_goals try (rw [phw, if_pos rfl]; intro _ h; simp [ph] at h)
    · show 2 ≤ ((s.write i (.ctx i) 0).tv i).cur _
      simp only [St.write, upd_same, TV.bump, if_true, cl, Nat.le_refl]
    intro k h1 h2
    rw [show ((s.write i (.ctx i) 0).w i .done).mem.len .flag = s.mem.len .flag from rfl] at h2; omega
  · exact c.worker hi (by rw [h]; simp) rfl rfl rfl (by show upd _ _ _ _ ≠ _; rw [upd_same]; simp) (Nat.le_refl _) (sameF rfl (Mem.val_append_ne _ _ _ (by simp))) (fun j hj => upd_ne _ _ hj) (fun j hj => upd_ne _ _ hj)

theorem I.use {i j : Nat} (v : Inv N s) (hi : i < N) (h : s.wpc i = .loop ∨ s.wpc i = .drain) : Inv N (s.write i (.rd i j) 0) := by
  obtain ⟨a, b, c⟩ := v
  have hp : 4 ≤ ph (s.wpc i) ∧ ph (s.wpc i) ≤ 5 := by rcases h with h | h <;> rw [h] <;> simp [ph]
  refine ⟨?_, ?_, ?_⟩
  · refine a.congr (fun l hl => ⟨?_, ?_⟩) rfl rfl (fun _ h => h)
    · rw [write_len, if_neg (hl i j)]
    · exact Mem.val_append_ne _ _ _ (hl i j)
  · exact b.useCtx a j (.inr ⟨hi, hp⟩) s.mpc rfl s.got
  · exact c.worker hi (by rcases h with h | h <;> rw [h] <;> simp) rfl rfl rfl (by show s.wpc i ≠ _; rcases h with h | h <;> rw [h] <;> simp) (Nat.le_refl _) (sameF rfl (Mem.val_append_ne _ _ _ (by simp))) (fun _ _ => rfl) (fun j hj => upd_ne _ _ hj)

/-! ### The owner -/

theorem I.spawn {k : Nat} (v : Inv N s) (h : s.mpc = .spawn k) (hk : k < N) : Inv N (((s.learn k N).w k .init).m (.spawn (k + 1))) := by
  obtain ⟨a, b, c⟩ := v
  obtain ⟨-, un⟩ := a.sp k h
  have hp : ph (s.wpc k) = 0 := by rw [un k (Nat.le_refl _)]; rfl
  have hm : mph s.mpc = 0 := by rw [h]; rfl
  have hs : ∀ j, ph (upd s.wpc k .init j) = if j = k then 1 else ph (s.wpc j) := fun j => by
    unfold upd; split <;> rfl
  have c3 : cnt N 3 (upd s.wpc k .init) = cnt N 3 s.wpc := cnt_same hk (by rw [hp]; simp [ph])
  have c8 : cnt N 8 (upd s.wpc k .init) = cnt N 8 s.wpc := cnt_same hk (by rw [hp]; simp [ph])
  have ge : ∀ n, 2 ≤ n → ∀ j, n ≤ ph (upd s.wpc k .init j) → n ≤ ph (s.wpc j) := fun n hn j e => by
    rw [hs] at e; split at e <;> omega
  refine ⟨?_, ?_, ?_⟩
  · refine ⟨a.sv, ?_, a.tv, ?_, a.fv, a.fl, fun e => ?_, fun k' e => ?_, fun e => absurd rfl e, fun j hj e => a.past j hj (ge 4 (by omega) j e), fun e => ?_,
      fun j hj e => a.seen j hj (ge 5 (by omega) j e), fun j hj e => a.past2 j hj (ge 9 (by omega) j e), fun j hj => ?_,
      fun j hj e => a.cv j hj (ge 2 (by omega) j e)⟩
    · show s.mem.len .start = 1 + cnt N 3 (upd s.wpc k .init) + if 2 ≤ mph (.spawn (k + 1)) then 1 else 0
      have := a.sl
      rw [hm] at this
      rw [c3]; exact this
    · show s.mem.len .stopL = 1 + cnt N 8 (upd s.wpc k .init)
      rw [c8]; exact a.tl
    · have := a.fm e; omega
    · cases e
      refine ⟨hk, fun i hi => ?_⟩
      show upd s.wpc k .init i = .unborn
      rw [upd_ne _ _ (by omega)]; exact un i (by omega)
    · simp [St.m, mph] at e
    · show s.mem.len (.ctx j) = if ph (upd s.wpc k .init j) < 2 then 1 else if ph (upd s.wpc k .init j) < 10 then 2 else 3
      have := a.cl j hj
      rw [hs, this]
      by_cases e : j = k
      · subst e; simp [hp]
      · rw [if_neg e]
  · refine b.move k (Grow.learn s k N) (fun _ _ => rfl) (hwOf (s.learn k N) rfl (by rw [hp]; rfl))
      ?_ ?_ ?_ ?_ ?_ ?_ ?_ ?_ ?_
    all_goals try (rw [show ph ((((s.learn k N).w k .init).m (.spawn (k + 1))).wpc k) = 1 from (by show ph (upd _ _ _ _) = 1; rw [upd_same]; rfl)]; intro _ h; omega)
    · intro e; simp [St.m, mph] at e
    · intro k' h1 h2
      rw [show (((s.learn k N).w k .init).m (.spawn (k + 1))).mem.len .flag = s.mem.len .flag from rfl] at h2; omega
  · refine ⟨c.ub, fun e => by simp [St.m, mph] at e, c.fz, ?_, nofun, ?_, fun _ => c.early (by omega), nofun, nofun⟩
    · intro k' e i hi
      cases e
      show upd s.wpc k .init i ≠ .unborn
      by_cases ei : i = k
      · subst ei; rw [upd_same]; simp
      · rw [upd_ne _ _ ei]; exact c.bn k h i (by omega)
    · intro e; simp [St.m, mph] at e

/-- An owner step that does not use a context. -/
theorem IB.owner {s' : St} (b : IB N s) (g : Grow s.mem s.tv s'.mem s'.tv) (hw : s'.wpc = s.wpc)
    (hr : ∀ t j, s'.mem.len (.rd t j) = s.mem.len (.rd t j))
    (om : 3 ≤ mph s'.mpc → 3 ≤ mph s.mpc ∨ ∀ j, j < N → 1 ≤ (s'.tv N).cur (.ctx j))
    (of : ∀ k, s.mem.len .flag ≤ k → k < s'.mem.len .flag → ∀ j, s.mem.len (.rd N j) ≤ s'.mem.view .flag k (.rd N j) + 1) : IB N s' :=
  have no : ∀ {P : Prop}, N < N → P := fun h => absurd h (Nat.lt_irrefl _)
  b.move N g hr (fun j _ => .inl (by rw [hw]; exact Nat.le_refl _)) (fun h => no h) (fun h => no h) (fun h => no h) (fun h => no h) om of
    (fun h => no h) (fun h => no h) (fun h => no h)

/-- An owner step that does not touch memory. -/
theorem IA.quiet {p : MPc} {s' : St} (a : IA N s) (h1 : s'.mem = s.mem) (h2 : s'.wpc = s.wpc) (h3 : s'.mpc = p) (hm0 : mph s.mpc ≤ mph p) (hm : 1 ≤ mph p)
    (hb : mph s.mpc = 0 → s.mpc = .spawn N ∧ mph p = 1 ∧ ∀ i, i < N → s.wpc i ≠ .unborn) (hs : ¬ (mph s.mpc < 2 ∧ 2 ≤ mph p))
    (g1 : 3 ≤ mph p → N + 2 ≤ s.mem.len .start) : IA N s' := by
  subst h3
  refine a.owner h2 hm0 hm hb ?_ ?_ ?_ ?_ ?_ ?_ ?_ ?_ ?_ g1
  · rw [h1, if_neg hs]; rfl
  all_goals rw [h1]
  · exact Nat.le_refl _
  · exact .inl
  · exact fun _ => rfl
  · exact a.sv
  · exact fun _ => rfl

theorem noflag {p : Nat → Prop} {n : Nat} : ∀ k, n ≤ k → k < n → p k := fun k h1 h2 => absurd h2 (by omega)

theorem I.spawned (v : Inv N s) (h : s.mpc = .spawn N) : Inv N (s.m .arrive) := by
  obtain ⟨a, b, c⟩ := v
  have hm : mph s.mpc = 0 := by rw [h]; rfl
  refine ⟨IA.quiet (p := .arrive) a rfl rfl rfl (by rw [hm]; decide) (by simp [mph]) (fun _ => ⟨h, rfl, c.bn N h⟩) (by simp [mph]) (by simp [mph]),
    b.owner (Grow.refl _ _) rfl (fun _ _ => rfl) (fun e => by simp [St.m, mph] at e) (fun k h1 h2 => absurd h2 (by show ¬ k < s.mem.len .flag; omega)),
    c.ub, fun e => by simp [St.m, mph] at e, c.fz, nofun, nofun, fun e => by simp [St.m, mph] at e, fun _ => c.early (by omega), nofun, nofun⟩

theorem I.marrive (v : Inv N s) (h : s.mpc = .arrive) : Inv N ((s.rmw N .start (s.val .start - 1)).m .wait) := by
  obtain ⟨a, b, c⟩ := v
  have hm : mph s.mpc = 1 := by rw [h]; rfl
  refine ⟨?_, ?_, ?_⟩
  · refine a.owner rfl (by rw [hm]; simp [St.m, mph]) (by simp [St.m, mph]) (fun e => by omega) ?_ rfl (Nat.le_refl _) ?_ .inl (fun j => rfl)
      (dec_val a.sv (b.wm.pos _)) ?_ (fun j => ?_) (fun e => by simp [St.m, mph] at e)
    · rw [if_pos ⟨by omega, by simp [St.m, mph]⟩]; rfl
    · show (s.rmw _ _ _).mem.val _ _ = _
      rw [rmw_val]; simp
    · exact Mem.val_append_ne _ _ _ (by simp)
    · exact Mem.val_append_ne _ _ _ (by simp)
  · exact b.owner (Grow.rmw s (b.wt N)) rfl (fun _ _ => rfl) (fun e => by simp [St.m, mph] at e)
      (fun k h1 h2 => absurd h2 (by show ¬ k < s.mem.len .flag; omega))
  · exact ⟨c.ub, fun e => by simp [St.m, mph] at e, fun k h1 hk => (congrFun (Mem.val_append_ne _ _ _ (by simp)) k).trans (c.fz k h1 hk), nofun, nofun, fun e => by simp [St.m, mph] at e, fun _ => c.early (by omega), nofun, nofun⟩

theorem I.mwake {k : Nat} (v : Inv N s) (h : s.mpc = .wait) (hr : CanRead s.mem (s.tv N) .start k) (h0 : s.mem.val .start k = 0) :
    Inv N ((s.look N .start k).m (.read 0)) := by
  obtain ⟨a, b, c⟩ := v
  have hm : mph s.mpc = 2 := by rw [h]; rfl
  obtain ⟨z1, z2⟩ := zeroS a hr.2 h0
  refine ⟨IA.quiet (p := .read 0) a rfl rfl rfl (by rw [hm]; decide) (by simp [mph]) (fun e => by omega) (by omega) (fun _ => z1), ?_, ?_⟩
  · refine b.owner (Grow.look s hr.2) rfl (fun _ _ => rfl) (fun _ => .inr fun j hj => ?_) (fun k h1 h2 => absurd h2 (by show ¬ k < s.mem.len .flag; omega))
    refine Nat.le_trans ?_ (look_cur s N .start k (.ctx j))
    rw [z2]; exact b.sview j hj (a.all3 z1 hj)
  · refine ⟨c.ub, fun e => by simp [St.m, mph] at e, c.fz, nofun, fun k e => ?_, fun e => by simp [St.m, mph] at e, fun e => by simp [St.m, mph] at e, nofun, nofun⟩
    cases e
    exact ⟨Nat.zero_le _, c.early (by omega)⟩

theorem I.mread {k : Nat} (v : Inv N s) (h : s.mpc = .read k) (hk : k < N) :
    Inv N { (s.write N (.rd N k) 0).m (.read (k + 1)) with got := s.got ++ [s.val (.ctx k)] } := by
  obtain ⟨a, b, c⟩ := v
  have hm : mph s.mpc = 3 := by rw [h]; rfl
  obtain ⟨-, hv⟩ := ctxOk a b hk (.inl ⟨rfl, by omega, by omega⟩)
  refine ⟨?_, ?_, ?_⟩
  · refine a.congr (fun l hl => ⟨?_, ?_⟩) rfl (by rw [hm]; rfl) nofun
    · exact (write_len s N (.rd N k) 0 l).trans (if_neg (hl N k))
    · exact Mem.val_append_ne _ _ _ (hl N k)
  · exact b.useCtx a k (.inl ⟨rfl, by omega⟩) _ (by rw [hm]; rfl) _
  · refine ⟨c.ub, fun e => by simp [St.m, mph] at e, fun k h1 hk => (congrFun (Mem.val_append_ne _ _ _ (by simp)) k).trans (c.fz k h1 hk), nofun, fun k' e => ?_, fun e => by simp [St.m, mph] at e, fun e => by simp [St.m, mph] at e, nofun, nofun⟩
    cases e
    refine ⟨hk, ?_⟩
    show s.got ++ _ = _
    rw [(c.rd k h).2, hv, List.range_succ, List.map_append]; rfl

theorem I.built (v : Inv N s) (h : s.mpc = .read N) : Inv N (s.m .up) := by
  obtain ⟨a, b, c⟩ := v
  have hm : mph s.mpc = 3 := by rw [h]; rfl
  refine ⟨IA.quiet (p := .up) a rfl rfl rfl (by rw [hm]; decide) (by simp [mph]) (fun e => by omega) (by omega) (fun _ => a.mpast (by omega)), ?_, ?_⟩
  · exact b.owner (Grow.refl _ _) rfl (fun _ _ => rfl) (fun _ => .inl (by omega)) (fun k h1 h2 => absurd h2 (by show ¬ k < s.mem.len .flag; omega))
  · exact ⟨c.ub, fun e => by simp [St.m, mph] at e, c.fz, nofun, nofun, fun _ => (c.rd N h).2, fun e => by simp [St.m, mph] at e, nofun, nofun⟩

theorem I.schedule {j : Nat} (v : Inv N s) (h : s.mpc = .up) : Inv N (s.write N (.rd N j) 0) := by
  obtain ⟨a, b, c⟩ := v
  have hm : mph s.mpc = 4 := by rw [h]; rfl
  refine ⟨?_, ?_, ?_⟩
  · refine a.congr (fun l hl => ⟨?_, ?_⟩) rfl rfl (fun _ e => e)
    · rw [write_len, if_neg (hl N j)]
    · exact Mem.val_append_ne _ _ _ (hl N j)
  · exact b.useCtx a j (.inl ⟨rfl, by omega⟩) s.mpc rfl s.got
  · refine ⟨c.ub, c.fg, fun k h1 hk => (congrFun (Mem.val_append_ne _ _ _ (by simp)) k).trans (c.fz k h1 hk), c.bn, c.rd, c.up, c.early, fun k e => ?_, fun e => ?_⟩
    · replace e : s.mpc = .join k := e
      rw [h] at e; cases e
    · replace e : s.mpc = .gone := e
      rw [h] at e; cases e

theorem I.stop (v : Inv N s) (h : s.mpc = .up) : Inv N ((s.rmw N .flag 1).m (.join 0)) := by
  obtain ⟨a, b, c⟩ := v
  have hm : mph s.mpc = 4 := by rw [h]; rfl
  have hl : ((s.rmw N .flag 1).m (.join 0)).mem.len .flag = s.mem.len .flag + 1 := by
    show (s.rmw _ _ _).mem.len _ = _
    rw [rmw_len, if_pos rfl]
  refine ⟨?_, ?_, ?_⟩
  · refine a.owner rfl (by rw [hm]; simp [St.m, mph]) (by simp [St.m, mph]) (fun e => by omega) ?_ rfl (by omega) ?_ (fun _ => .inr (by simp [St.m, mph])) (fun j => rfl)
      (fun k hk => ?_) ?_ (fun j => ?_) (fun _ => a.mpast (by omega))
    · rw [if_neg (by omega)]; rfl
    · show (s.rmw _ _ _).mem.val _ _ = _
      have := a.fl
      rw [rmw_val, if_neg (by omega)]
    · show (s.rmw _ _ _).mem.val _ _ = _
      rw [rmw_val]; simp only [reduceCtorEq, false_and, if_false]; exact a.sv k hk
    · exact Mem.val_append_ne _ _ _ (by simp)
    · exact Mem.val_append_ne _ _ _ (by simp)
  · refine b.owner (Grow.rmw s (b.wt N)) rfl (fun _ _ => rfl) (fun _ => .inl (by omega)) (fun k h1 h2 j => ?_)
    rw [hl] at h2
    have : k = s.mem.len .flag := by omega
    subst this
    exact Nat.le_trans (b.rown N j) (Nat.succ_le_succ (rmw_view' (by simp)))
  · refine ⟨c.ub, fun _ => by have := a.fl; omega, fun k h1 hk => ?_, nofun, nofun, fun _ => c.up (by omega), fun e => by simp [St.m, mph] at e, fun k e => ?_, nofun⟩
    · rw [hl] at hk
      show (s.rmw N .flag 1).mem.val .flag k = 1
      rw [rmw_val]; split
      · rfl
      · rename_i e
        have := a.fl
        exact c.fz k h1 (by simp only [true_and] at e; omega)
    cases e
    exact ⟨Nat.zero_le _, fun i hi => absurd hi (Nat.not_lt_zero _)⟩

theorem I.join {k : Nat} (v : Inv N s) (h : s.mpc = .join k) (hk : k < N) (hd : s.wpc k = .done) : Inv N ((s.learn N k).m (.join (k + 1))) := by
  obtain ⟨a, b, c⟩ := v
  have hm : mph s.mpc = 5 := by rw [h]; rfl
  have g := Grow.learn s N k
  refine ⟨IA.quiet (p := .join (k + 1)) a rfl rfl rfl (by rw [hm]; exact Nat.le_refl _) (by simp [mph]) (fun e => by omega) (by omega) (fun _ => a.mpast (by omega)), ?_, ?_⟩
  · exact b.owner g rfl (fun _ _ => rfl) (fun _ => .inl (by omega)) (fun k h1 h2 => absurd h2 (by show ¬ k < s.mem.len .flag; omega))
  · refine ⟨c.ub, fun _ => c.fg (by omega), c.fz, nofun, nofun, fun _ => c.up (by omega), fun e => by simp [St.m, mph] at e, fun k' e => ?_, nofun⟩
    cases e
    obtain ⟨-, old⟩ := c.jn k h
    refine ⟨hk, fun i hi => ?_⟩
    show s.wpc i = .done ∧ ∀ l, ((s.learn N k).tv i).cur l ≤ ((s.learn N k).tv N).cur l
    have hi' : (s.learn N k).tv i = s.tv i := upd_ne _ _ (by omega)
    rw [hi']
    by_cases e : i = k
    · subst e
      refine ⟨hd, fun l => ?_⟩
      simp only [St.learn, upd_same, Weak.join]; omega
    · obtain ⟨o1, o2⟩ := old i (by omega)
      exact ⟨o1, fun l => Nat.le_trans (o2 l) (g.cur N l)⟩

theorem I.joined (v : Inv N s) (h : s.mpc = .join N) : Inv N (s.m .gone) := by
  obtain ⟨a, b, c⟩ := v
  have hm : mph s.mpc = 5 := by rw [h]; rfl
  refine ⟨IA.quiet (p := .gone) a rfl rfl rfl (by rw [hm]; decide) (by simp [mph]) (fun e => by omega) (by omega) (fun _ => a.mpast (by omega)), ?_, ?_⟩
  · exact b.owner (Grow.refl _ _) rfl (fun _ _ => rfl) (fun _ => .inl (by omega)) (fun k h1 h2 => absurd h2 (by show ¬ k < s.mem.len .flag; omega))
  · exact ⟨c.ub, fun _ => c.fg (by omega), c.fz, nofun, nofun, fun _ => c.up (by omega), fun e => by simp [St.m, mph] at e, nofun, fun _ => (c.jn N h).2⟩

theorem Inv.step {s' : St} (v : Inv N s) (st : Step N s s') : Inv N s' := by
  have ⟨a, b, c⟩ := v
  cases st
  case spawn k h hk => exact I.spawn v h hk
  case spawned h => exact I.spawned v h
  case marrive h => exact I.marrive v h
  case mwake k h hr h0 => exact I.mwake v h hr h0
  case mread k h hk _ => exact I.mread v h hk
  case mreadRace k h hk hn =>
    exact absurd (ctxOk a b hk (.inl ⟨rfl, by rw [h]; exact Nat.le_refl _, by rw [h]; simp [mph]⟩)).1 hn
  case built h => exact I.built v h
  case schedule j h hj _ _ => exact I.schedule v h
  case scheduleBad j h hj hn =>
    obtain ⟨h1, h2⟩ := ctxOk a b hj (.inl ⟨rfl, by rw [h]; simp [mph], by rw [h]; exact Nat.le_refl _⟩)
    exact absurd ⟨h1, by omega⟩ hn
  case stop h => exact I.stop v h
  case join k h hk hd => exact I.join v h hk hd
  case joined h => exact I.joined v h
  case init i hi h _ => exact I.init v hi h
  case initRace i hi h hn => exact absurd (initOk a b hi h) hn
  case arrive i hi h => exact I.arrive v hi h
  case wake i k hi h hr h0 => exact I.wake v hi h hr h0
  case use i j hi hj h _ _ => exact I.use v hi h
  case useBad i j hi hj h hn =>
    obtain ⟨h1, h2⟩ := ctxOk (t := i) a b hj (.inr ⟨hi, by rcases h with h | h <;> rw [h] <;> simp [ph]⟩)
    exact absurd ⟨h1, by omega⟩ hn
  case see i k hi h hr h0 => exact I.see v hi h hr h0
  case leave i hi h => exact I.leave v hi h
  case flag i hi h => exact I.flag v hi h
  case arrive2 i hi h => exact I.arrive2 v hi h
  case wake2 i k hi h hr h0 => exact I.wake2 v hi h hr h0
  case finalise i hi h _ _ => exact I.finalise v hi h
  case finaliseRace i hi h hn => exact absurd (finOk a b hi h) hn

theorem Inv.reach {s : St} (r : Reach N s) : Inv N s := by
  induction r with
  | init => exact .init N
  | step _ st ih => exact ih.step st

end Verif.Weak.Start
