import Verif.Own.Run

/-!
C75: no data race on the stacks.
-/
namespace Verif.Own
open Verif.Runtime (State Res Fr Pc Loc Link Alive Zomb Few upd upd_apply upd_same upd_ne maxU16)
open Verif.Exn (XS Choice)
open Verif.Mem (MS Act)
open Verif.Hb (HS Clk Ord I Fx sync)
open Verif.Cactus (Ab)

variable {σ V E L : Type} [Inhabited E] [DecidableEq L] {body : σ → Act σ V E L} {pend : σ → Nat} {dirty : σ → Prop} {may : E → Prop} {ok : (σ → Prop) → σ → Prop} {m : L → E}

theorem reach_hb {o : OS σ V E L} (h : Reach body pend may ok m o) : Hb.Reach body pend may ok m o.a := by
  induction h with
  | start y => exact .start y
  | submit t w _ hf hp ho ih => exact .submit t w ih hf hp ho
  | step _ hf ha hs ih =>
    unfold step at hs
    split at hs <;> cases hs
    rename_i a' hs
    exact .step ih hf ha hs
  | wait t f _ hs ih => exact .wait t f ih hs
  | other t _ ih => exact .other t ih
  | meet t u _ ih => exact .meet t u ih

/-- Two accesses, the second earlier: if they are to one stack, the earlier happens before the later. -/
def After (r r' : Acc) : Prop := r.stack = r'.stack → r'.no ∈ r.known

theorem KI.clk {c : State σ (Except E V)} {h h' : Clk} {tr : List Acc} (i : KI c h tr) (h1 : h'.kn = h.kn) (h2 : h'.kb = h.kb) (h3 : h'.kj = h.kj) : KI c h' tr := by
  refine ⟨fun v hv => by rw [h1]; exact i.own v hv, fun k p hp hu => ?_, i.fresh⟩
  have := i.pub k p hp hu
  unfold Pub at this ⊢
  rw [h2, h3]
  exact this

omit [Inhabited E] [DecidableEq L] in
theorem sync_mem (w : Nat) (ch : Choice E) (x : XS σ V E) (h : Clk) : h.n ∈ (sync body w ch x h).kn w := by
  have u := up_tick h w
  unfold sync
  simp only
  split
  · split
    · split
      · exact (u.acq _).n
      · exact u.n
    · split
      · exact (u.acq _).n
      · exact u.n
    · exact u.n
  · split
    · exact u.n
    · exact u.n
    · exact u.n
    · split <;> exact u.n
    · split <;> exact u.n
    · exact u.n
  · split
    · exact (u.acq _).n
    · exact u.n
  · exact (u.sub _ _).n
  · exact (u.sub _ _).n
  all_goals exact u.n

theorem reach_ki (hd : Mem.Disc body pend dirty) {o : OS σ V E L} (hr : Reach body pend may ok m o) : KI o.a.s.x.c o.a.h o.tr ∧ o.tr.Pairwise After := by
  induction hr with
  | start y => exact ⟨⟨fun _ _ _ hr => absurd hr (by simp), fun _ _ _ _ _ hr => absurd hr (by simp), fun _ _ _ hr => absurd hr (by simp)⟩, .nil⟩
  | @submit o c t w hr hf hp ho ih =>
    obtain ⟨i, p⟩ := ih
    have hx := Hb.reach_x (reach_hb hr)
    have ab := Verif.Cactus.ab_of (Mem.disc_ctl hd) hx
    have hfr := i.fresh o.a.s.x.c.ns (Nat.le_refl _)
    have es : (Hb.submit o.a t c w).s.x.c.stk o.a.s.x.c.nf = 2 * o.a.s.x.c.ns := upd_same _ _ _
    refine ⟨⟨fun v hv => ?_, fun k f hf hu => ?_, fun n hn r hr' => ?_⟩, .cons (fun r' hr' e => ?_) p⟩
    · intro r hr' e
      rcases List.mem_cons.1 hr' with rfl | hr'
      · exact absurd (e.symm.trans es) (ab.fr2 _ (Nat.le_refl _) v)
      · exact i.own v hv r hr' e
    · by_cases ek : k = 2 * o.a.s.x.c.ns
      · subst ek
        have hal : (Hb.submit o.a t c w).s.x.c.al (2 * o.a.s.x.c.ns) = o.a.s.x.c.nf :: o.a.s.x.c.al (2 * o.a.s.x.c.ns) := upd_same _ _ _
        replace hf : ((Hb.submit o.a t c w).s.x.c.al (2 * o.a.s.x.c.ns)).head? = some f := hf
        rw [hal] at hf
        cases hf
        have hP : Pub (Hb.submit o.a t c w).s.x.c (Hb.submit o.a t c w).h o.a.s.x.c.nf = o.a.h.n :: o.a.h.kt t := by
          unfold Pub
          have : (Hb.submit o.a t c w).s.x.c.loc o.a.s.x.c.nf = .inbox w := upd_same _ _ _
          rw [this]
          have h0 : ((Hb.submit o.a t c w).s.x.c.fr o.a.s.x.c.nf).steal = 0 := by
            show (upd o.a.s.x.c.fr o.a.s.x.c.nf _ o.a.s.x.c.nf).steal = 0
            rw [upd_same]
          rw [if_pos h0]
          exact upd_same _ _ _
        intro r hr' e
        show r.no ∈ Pub (Hb.submit o.a t c w).s.x.c (Hb.submit o.a t c w).h o.a.s.x.c.nf
        rw [hP]
        rcases List.mem_cons.1 hr' with rfl | hr'
        · exact List.mem_cons_self ..
        · exact absurd e (hfr r hr')
      · have hal : (Hb.submit o.a t c w).s.x.c.al k = o.a.s.x.c.al k := upd_ne _ _ ek
        replace hf : ((Hb.submit o.a t c w).s.x.c.al k).head? = some f := hf
        rw [hal] at hf
        have hlt : f ≠ o.a.s.x.c.nf := Nat.ne_of_lt (ab.lt k f (List.mem_of_head? hf))
        have hP : Pub o.a.s.x.c o.a.h f ⊆ Pub (Hb.submit o.a t c w).s.x.c (Hb.submit o.a t c w).h f := by
          refine pub_mono (.inr ⟨upd_ne _ _ hlt, ?_⟩) ?_ ?_
          · exact congrArg _ (upd_ne _ _ hlt)
          · intro y hy
            show y ∈ upd o.a.h.kb _ _ f
            rw [upd_ne _ _ hlt]; exact hy
          · intro y hy
            show y ∈ upd o.a.h.kj _ _ f
            rw [upd_ne _ _ hlt]; exact hy
        intro r hr' e
        rcases List.mem_cons.1 hr' with rfl | hr'
        · exact absurd (e.symm.trans es) ek
        · exact hP (i.pub k f hf hu r hr' e)
    · have hn : o.a.s.x.c.ns + 1 ≤ n := hn
      rcases List.mem_cons.1 hr' with rfl | hr'
      · rw [show (⟨o.a.h.n, (Hb.submit o.a t c w).s.x.c.stk o.a.s.x.c.nf, (Hb.submit o.a t c w).h.kt t⟩ : Acc).stack = 2 * o.a.s.x.c.ns from es]; omega
      · exact i.fresh n (by omega) r hr'
    · exact absurd (e.symm.trans es) (hfr r' hr')
  | @step o o' w ch hr hf ha hs ih =>
    obtain ⟨i, p⟩ := ih
    have hb := reach_hb hr
    have hx := Hb.reach_x hb
    obtain ⟨B, hI⟩ := (Hb.reach_all hd hb).i
    have hwin : ∀ w p, o.a.s.x.c.loc p = .winning w → o.a.h.kj p ⊆ o.a.h.kn w := fun w p hl => by
      have := hI.hk p
      rw [hl] at this
      exact this.2
    unfold step at hs
    split at hs <;> cases hs
    rename_i a' hs
    unfold Hb.step at hs
    split at hs <;> cases hs
    rename_i s' hs
    obtain ⟨k1, k2⟩ := fine_step i (Verif.Cactus.ab_of (Mem.disc_ctl hd) hx) (ow_of (Mem.disc_ctl hd) hx) (Hb.fx_of (Mem.disc_ctl hd) hx) hf hwin hs
    refine ⟨k1, List.pairwise_append.2 ⟨?_, p, ?_⟩⟩
    · refine List.pairwise_map.2 (List.pairwise_of_forall_mem_list fun a _ b _ _ => ?_)
      exact sync_mem w ch o.a.s.x o.a.h
    · intro r hr1 r' hr2 e
      obtain ⟨k, hk, rfl⟩ := List.mem_map.1 hr1
      exact k2 k hk r' hr2 e.symm
  | wait t f hr hs ih =>
    unfold Hb.wait at hs
    split at hs <;> cases hs
    exact ⟨ih.1.clk rfl rfl rfl, ih.2⟩
  | other t hr ih => exact ⟨ih.1.clk rfl rfl rfl, ih.2⟩
  | meet t u hr ih => exact ⟨ih.1.clk rfl rfl rfl, ih.2⟩

/-- C75: of every two accesses to the stacklets of a stack, by whatever workers or threads, the earlier happens before the later. -/
theorem C75_stacks (hd : Mem.Disc body pend dirty) {o : OS σ V E L} (h : Reach body pend may ok m o) :
    o.tr.Pairwise fun later earlier => later.stack = earlier.stack → earlier.no ∈ later.known := (reach_ki hd h).2

end Verif.Own
