import Verif.Own.Step

/-!
Every step of a task keeps the invariant of Verif.Own.Inv.
-/
set_option linter.unusedSectionVars false
namespace Verif.Own
open Verif.Runtime (State Res Fr Pc Loc Link Alive Zomb Few upd upd_apply upd_same upd_ne maxU16)
open Verif.Exn (XS Choice)
open Verif.Mem (MS Act)
open Verif.Hb (HS Clk Ord I Fx sync plain_ok)
open Verif.Cactus (Ab isTop_iff)

variable {σ V E L : Type} {x x' : XS σ V E} {h : Clk} {ch : Choice E} {body : σ → Act σ V E L} {tr : List Acc} {w : Nat} {S : List Nat}
variable (i : KI x.c h tr) (ab : Ab x.c) (ow : Ow x.c) (F : Fx x)
include i ab ow F

/-- The task goes on. -/
theorem fine_stay {f : Nat} {y : σ} (hp : x.c.pc w = .run f) (hS : ∀ k ∈ S, k = x.c.wk w) (h1 : x'.c.pc = x.c.pc) (h2 : x'.c.wk = x.c.wk) (h3 : ∀ k, k ≠ x.c.wk w → x'.c.al k = x.c.al k)
    (h4 : x'.c.ns = x.c.ns) (h5 : x'.c.loc = x.c.loc) (h6 : x'.c.fr = (Exn.goOn x.c f y).fr) : Fine tr x'.c (h.tick w) w h.n S := by
  have hz : ¬ Zomb (x.c.pc w) := by rw [hp]; exact id
  have u := up_tick h w
  refine Fine.keep (q := .run f) i ab hz (by rw [h1, ← hp, Hb.upd_self]) h2 h3 h4 u.kn u.n hS ?_ (fun hq => hq.elim)
  intro p j _ _
  refine pub_mono (.inr ⟨by rw [h5], ?_⟩) (fun _ h => h) (fun _ h => h)
  rw [h6]
  simp only [Exn.goOn, upd_apply]
  split
  · rename_i e; subst e; rfl
  · rfl

/-- A fork or a call. -/
theorem fine_spawn {f : Nat} {l : Loc} {h' : Clk} (hp : x.c.pc w = .run f) (hl : NI l) (h1 : x'.c.pc = upd x.c.pc w (.run x.c.nf)) (h2 : x'.c.wk = x.c.wk)
    (h3 : x'.c.al = upd x.c.al (x.c.wk w) (x.c.nf :: x.c.al (x.c.wk w))) (h4 : x'.c.ns = x.c.ns) (h5 : x'.c.loc = upd (upd x.c.loc f l) x.c.nf (.running w))
    (h6 : ∀ p, p ≠ f → p ≠ x.c.nf → x'.c.fr p = x.c.fr p) (u : Up h h' w) (hb : h'.kb = h.kb) (hj : h'.kj = upd h.kj x.c.nf []) : Fine tr x'.c h' w h.n [x.c.wk w] := by
  have hz : ¬ Zomb (x.c.pc w) := by rw [hp]; exact id
  have hlf : x.c.loc f = .running w := (F.loc.run w f).2 (.inl hp)
  refine Fine.keep (q := .run x.c.nf) i ab hz h1 h2 (fun k hk => by rw [h3, upd_ne _ _ hk]) h4 u.kn u.n (by simp) ?_ (fun hq => hq.elim)
  intro p j _ hpj
  have hlt : p ≠ x.c.nf := Nat.ne_of_lt (ab.lt j p (List.mem_of_head? hpj))
  refine pub_mono ?_ (by rw [hb]; exact fun _ h => h) (by rw [hj, upd_ne _ _ hlt]; exact fun _ h => h)
  rw [h5, upd_ne _ _ hlt]
  by_cases e : p = f
  · subst e
    exact .inl ⟨fun d => by rw [hlf]; simp, fun d => by rw [upd_same]; exact hl d⟩
  · exact .inr ⟨upd_ne _ _ e, by rw [h6 p e hlt]⟩

theorem fine_join {bd : σ → Exn.Act σ V E} {f : Nat} (hp : x.c.pc w = .run f) (e : Exn.doJoin bd x w f = .ok x') :
    Fine tr x'.c (h.tick w) w h.n (if (x.c.fr f).steal = 0 then [x.c.wk w] else []) := by
  have hz : ¬ Zomb (x.c.pc w) := by rw [hp]; exact id
  have hlf : x.c.loc f = .running w := (F.loc.run w f).2 (.inl hp)
  have u := up_tick h w
  unfold Exn.doJoin at e
  simp only at e
  split at e
  · rename_i h0
    rw [if_pos h0]
    obtain ⟨e1, e2, e3, e4, e5, e6⟩ := passJoin_own e
    refine Fine.keep (q := .run f) i ab hz e4 e2 (fun k _ => by rw [e1]) e3 u.kn u.n (by simp) ?_ (fun hq => hq.elim)
    intro p j _ hpj
    refine pub_mono ?_ (fun _ h => h) (fun _ h => h)
    rw [e5]
    by_cases e : p = f
    · subst e
      exact .inl ⟨fun d => by rw [hlf]; simp, fun d => by rw [upd_same]; simp⟩
    · exact .inr ⟨upd_ne _ _ e, by rw [e6 p e]⟩
  · rename_i h0
    cases e
    rw [if_neg h0]
    exact Fine.keep (q := .joinLoad f) i ab hz rfl rfl (fun k _ => rfl) rfl u.kn u.n (by simp) (fun p j _ _ => pub_mono (.inr ⟨rfl, rfl⟩) (fun _ h => h) (fun _ h => h)) (fun hq => hq.elim)

theorem fine_switch {f d : Nat} {k : σ} (hp : x.c.pc w = .run f) (e : Exn.Res.bind (Runtime.doSwitch x.c w f d k) (fun c' => .ok { x with c := c' }) = .ok x') :
    Fine tr x'.c ((h.tick w).send w f) w h.n [x.c.wk w] := by
  have hz : ¬ Zomb (x.c.pc w) := by rw [hp]; exact id
  have hlf : x.c.loc f = .running w := (F.loc.run w f).2 (.inl hp)
  have u : Up h ((h.tick w).send w f) w := ⟨(up_tick h w).kn, (up_tick h w).n⟩
  unfold Runtime.doSwitch at e
  simp only at e
  split at e
  case isFalse => cases e
  rename_i hc
  cases e
  refine Fine.keep (q := .switchRel (decide ((x.c.fr f).steal = 0))) i ab hz rfl rfl (fun k _ => rfl) rfl u.kn u.n (by simp) ?_ ?_
  · intro p j hj hpj
    by_cases e : p = f
    · subst e
      have h0 : (x.c.fr p).steal ≠ 0 := by
        intro h0
        have h1 := hc.1 (decide_eq_true h0)
        exact hj ((ow.mem _ _ (List.mem_of_head? hpj)).symm.trans h1.1.symm)
      rw [pub_ni (fun d => by rw [hlf]; simp)]
      unfold Pub
      simp only [upd_same, if_neg h0]
      exact fun _ h => h
    · refine pub_mono (.inr ⟨upd_ne _ _ e, by simp only [upd_ne _ _ e]⟩) ?_ (fun _ h => h)
      intro y hy
      show y ∈ upd h.kb f _ p
      rw [upd_ne _ _ e]; exact hy
  · intro hq
    by_cases h0 : (x.c.fr f).steal = 0
    · have h1 := hc.1 (decide_eq_true h0)
      refine ⟨f, by rw [h1.1]; exact isTop_iff.1 h1.2, ?_⟩
      unfold Pub
      simp only [upd_same, if_pos h0]
      intro y hy
      show y ∈ upd h.kb f _ f
      rw [upd_same]; exact hy
    · rw [decide_eq_false h0] at hq; exact hq.elim

omit i ab ow F in
theorem destroy_own {s s' : State σ (Except E V)} {f : Nat} (e : Runtime.destroy s w f = .ok s') :
    s'.wk = s.wk ∧ s'.ns = s.ns ∧ (∀ k, k ≠ s.wk w → s'.al k = s.al k) := by
  unfold Runtime.destroy at e
  split at e <;> cases e
  exact ⟨rfl, rfl, fun k hk => upd_ne _ _ hk⟩

theorem fine_end {bd : σ → Exn.Act σ V E} {f : Nat} {r : Except E V} {h' : Clk} (hp : x.c.pc w = .run f) (u : Up h h' w) (hb : h'.kb = h.kb) (hj : h'.kj = h.kj)
    (e : Exn.doEnd bd x w f r = .ok x') : Fine tr x'.c h' w h.n [x.c.wk w] := by
  have hz : ¬ Zomb (x.c.pc w) := by rw [hp]; exact id
  have hlf : x.c.loc f = .running w := (F.loc.run w f).2 (.inl hp)
  have hB : ∀ p, h.kb p ⊆ h'.kb p := fun p => by rw [hb]; exact fun _ h => h
  have hJ : ∀ p, h.kj p ⊆ h'.kj p := fun p => by rw [hj]; exact fun _ h => h
  unfold Exn.doEnd at e
  simp only at e
  split at e
  case isFalse => cases e
  split at e
  · rename_i hlk
    split at e
    case h_2 => cases e
    rename_i s1 hd
    obtain ⟨d1, d2, d3⟩ := destroy_own hd
    obtain ⟨-, -, d4⟩ := Hb.destroy_eq hd
    split at e <;> cases e
    refine Fine.keep (q := .idle) i ab hz rfl d1 d3 d2 u.kn u.n (by simp) ?_ (fun hq => hq.elim)
    intro p j _ hpj
    refine pub_mono ?_ (hB p) (hJ p)
    by_cases e : p = f
    · subst e
      exact .inl ⟨fun d => by rw [hlf]; simp, fun d => by show upd x.c.loc p _ p ≠ _; rw [upd_same]; simp⟩
    · exact .inr ⟨upd_ne _ _ e, by simp only [d4]⟩
  · rename_i p hlk
    split at e
    case isFalse => cases e
    split at e
    case h_2 => cases e
    rename_i s1 _ _ hd
    obtain ⟨d1, d2, d3⟩ := destroy_own hd
    cases e
    have hlp : x.c.loc p = .callwait f := (F.callw p f).2 ⟨hlk, by rw [hlf]; trivial⟩
    refine Fine.keep (q := .run p) i ab hz rfl d1 d3 d2 u.kn u.n (by simp) ?_ (fun hq => hq.elim)
    intro g j _ hpj
    refine pub_mono ?_ (hB g) (hJ g)
    by_cases e1 : g = p
    · subst e1
      exact .inl ⟨fun d => by rw [hlp]; simp, fun d => by show upd (upd x.c.loc f _) g _ g ≠ _; rw [upd_same]; simp⟩
    · by_cases e2 : g = f
      · subst e2
        exact .inl ⟨fun d => by rw [hlf]; simp, fun d => by show upd (upd x.c.loc g _) p _ g ≠ _; rw [upd_ne _ _ e1, upd_same]; simp⟩
      · exact .inr ⟨by show upd (upd x.c.loc f _) p _ g = _; rw [upd_ne _ _ e1, upd_ne _ _ e2], by simp only [upd_ne _ _ e1]⟩
  · rename_i p n hlk
    split at e
    case isFalse => cases e
    split at e
    case h_2 => cases e
    rename_i s1 hd
    obtain ⟨d1, d2, d3⟩ := destroy_own hd
    cases e
    refine Fine.keep (q := .finPop p f) i ab hz rfl d1 d3 d2 u.kn u.n (by simp) ?_ (fun hq => hq.elim)
    intro g j _ hpj
    refine pub_mono ?_ (hB g) (hJ g)
    by_cases e2 : g = f
    · subst e2
      exact .inl ⟨fun d => by rw [hlf]; simp, fun d => by show upd x.c.loc g _ g ≠ _; rw [upd_same]; simp⟩
    · refine .inr ⟨upd_ne _ _ e2, ?_⟩
      by_cases e1 : g = p
      · subst e1; simp only [upd_same]
      · simp only [upd_ne _ _ e1]

omit i ab ow F in
theorem failed_own {f : Nat} {c z : σ} {b : Bool} (e : Exn.failed x w f c z b = .ok x') :
    x'.c.pc = x.c.pc ∧ x'.c.wk = x.c.wk ∧ (∀ k, k ≠ x.c.wk w → x'.c.al k = x.c.al k) ∧ x'.c.ns = x.c.ns ∧ x'.c.loc = x.c.loc ∧ x'.c.fr = (Exn.goOn x.c f z).fr := by
  unfold Exn.failed at e
  cases b <;> simp only [if_true, if_false, Bool.false_eq_true] at e
  · cases e; exact ⟨rfl, rfl, fun _ _ => rfl, rfl, rfl, rfl⟩
  · split at e <;> cases e
    rename_i s1 hd
    obtain ⟨-, -, d3⟩ := destroy_own hd
    exact ⟨rfl, rfl, fun k hk => (d3 k hk).trans (upd_ne _ _ hk), rfl, rfl, rfl⟩

theorem fine_run [Inhabited E] {f : Nat} (hp : x.c.pc w = .run f) (hn : Mem.NoAcc body (x.c.fr f).st) (e : Exn.run (Mem.ctl body) x w f ch = .ok x') :
    Fine tr x'.c (sync body w ch x h) w h.n (touch body w ch x.c) := by
  unfold Exn.run at e
  simp only [touch, hp, touchRun]
  have hup := up_tick h w
  have hend : ∀ r, Exn.doEnd (Mem.ctl body) x w f r = .ok x' →
      Fine tr x'.c (if x.c.link f = .root then (h.tick w).signal w f else h.tick w) w h.n [x.c.wk w] := by
    intro r e
    split
    · exact fine_end i ab ow F hp ⟨hup.kn, hup.n⟩ rfl rfl e
    · exact fine_end i ab ow F hp hup rfl rfl e
  cases ch with
  | go o =>
    cases hb : body (x.c.fr f).st with
    | ret v =>
      simp only [Mem.ctl, hb] at e
      simp only [sync, hp, hb]
      exact hend _ e
    | throw v =>
      simp only [Mem.ctl, hb] at e
      simp only [sync, hp, hb]
      exact hend _ e
    | fork c k z =>
      simp only [Mem.ctl, hb] at e
      cases e
      simp only [sync, hp, hb]
      exact fine_spawn (l := .queued w x.c.nf) i ab ow F hp (by simp [NI]) rfl rfl rfl rfl rfl
        (fun p h1 h2 => by simp only [Exn.fork, Runtime.doFork, Runtime.newFrame, upd_ne _ _ h1, upd_ne _ _ h2]) ⟨hup.kn, hup.n⟩ rfl rfl
    | call c k z =>
      simp only [Mem.ctl, hb] at e
      cases e
      simp only [sync, hp, hb]
      exact fine_spawn (l := .callwait x.c.nf) i ab ow F hp (by simp [NI]) rfl rfl rfl rfl rfl
        (fun p h1 h2 => by simp only [Exn.call, Runtime.doCall, Runtime.newFrame, upd_ne _ _ h2]) ⟨hup.kn, hup.n⟩ rfl rfl
    | join k z =>
      simp only [Mem.ctl, hb] at e
      simp only [sync, hp, hb]
      exact fine_join i ab ow F hp e
    | switch d k z =>
      simp only [Mem.ctl, hb] at e
      simp only [sync, hp, hb]
      exact fine_switch i ab ow F hp e
    | load l k => exact absurd hb (hn.1 l k)
    | store l d k => exact absurd hb (hn.2 l d k)
  | fail y b =>
    cases hb : body (x.c.fr f).st with
    | fork c k z =>
      simp only [Mem.ctl, hb] at e
      simp only [sync, hp, hb]
      obtain ⟨h1, h2, h3, h4, h5, h6⟩ := failed_own e
      exact fine_stay i ab ow F hp (by simp) h1 h2 h3 h4 h5 h6
    | call c k z =>
      simp only [Mem.ctl, hb] at e
      simp only [sync, hp, hb]
      obtain ⟨h1, h2, h3, h4, h5, h6⟩ := failed_own e
      exact fine_stay i ab ow F hp (by simp) h1 h2 h3 h4 h5 h6
    | switch d k z =>
      simp only [Mem.ctl, hb] at e
      cases e
      simp only [sync, hp, hb]
      exact fine_stay (S := []) (x' := { x with c := Exn.goOn x.c f (z y) }) (y := z y) i ab ow F hp (by simp) rfl rfl (fun _ _ => rfl) rfl rfl rfl
    | load l k => exact absurd hb (hn.1 l k)
    | store l d k => exact absurd hb (hn.2 l d k)
    | _ => simp only [Mem.ctl, hb] at e; cases e
  | ready =>
    cases hb : body (x.c.fr f).st with
    | switch d k z =>
      simp only [Mem.ctl, hb] at e
      cases e
      simp only [sync, hp, hb]
      exact fine_stay (S := []) (x' := { x with c := Exn.goOn x.c f k }) (y := k) i ab ow F hp (by simp) rfl rfl (fun _ _ => rfl) rfl rfl rfl
    | load l k => exact absurd hb (hn.1 l k)
    | store l d k => exact absurd hb (hn.2 l d k)
    | _ => simp only [Mem.ctl, hb] at e; cases e

theorem fine_control [Inhabited E] (hf : Few x.c) (hwin : ∀ w p, x.c.loc p = .winning w → h.kj p ⊆ h.kn w)
    (hn : ∀ f, x.c.pc w = .run f → Mem.NoAcc body (x.c.fr f).st) (e : Exn.step (Mem.ctl body) w ch x = .ok x') :
    Fine tr x'.c (sync body w ch x h) w h.n (touch body w ch x.c) := by
  unfold Exn.step at e
  split at e
  · rename_i hp
    split at e
    · exact fine_take i ab ow F hp e
    · exact fine_steal i ab ow F hp e
    · cases e
  · rename_i hp; exact fine_run i ab ow F hp (hn _ hp) e
  · rename_i hp; exact fine_joinLoad i ab ow F hp e
  · rename_i hp; exact fine_joinSub i ab ow F hp e
  · rename_i hp; exact fine_joinTake i ab ow F hwin hp e
  · rename_i hp
    split at e
    · rename_i hq; exact fine_finPop0 i ab ow F hp hq e
    · rename_i hq; exact fine_finPop i ab ow F hp hq e
  · rename_i hp; exact fine_finDec i ab ow F hf hp e
  · rename_i hp; exact fine_finWin i ab ow F hwin hp e
  · rename_i hp; exact fine_finLose i ab ow F hp e
  · rename_i hp; exact fine_selfSteal i ab ow F hp e
  · rename_i hp; exact fine_stole i ab ow F hp e
  · rename_i hp; exact fine_switchRel i ab ow F hp e

omit i ab ow F in
theorem fine_step [Inhabited E] [DecidableEq L] {s s' : MS σ V E L} (i : KI s.x.c h tr) (ab : Ab s.x.c) (ow : Ow s.x.c) (F : Fx s.x) (hf : Few s.x.c)
    (hwin : ∀ w p, s.x.c.loc p = .winning w → h.kj p ⊆ h.kn w) (e : Mem.step body w ch s = .ok s') :
    Fine tr s'.x.c (sync body w ch s.x h) w h.n (touch body w ch s.x.c) := by
  have hc : (∀ f, s.x.c.pc w = .run f → Mem.NoAcc body (s.x.c.fr f).st) → Mem.control body w ch s = .ok s' → Fine tr s'.x.c (sync body w ch s.x h) w h.n (touch body w ch s.x.c) := by
    intro hn e
    unfold Mem.control at e
    cases hx : Exn.step (Mem.ctl body) w ch s.x with
    | ok x => rw [hx] at e; cases e; exact fine_control i ab ow F hf hwin hn hx
    | no => rw [hx] at e; cases e
    | ub => rw [hx] at e; cases e
  unfold Mem.step at e
  split at e
  · rename_i f hp
    have ht : ∀ l k, body (s.x.c.fr f).st = .load l k → sync body w ch s.x h = h.tick w ∧ touch body w ch s.x.c = [] := by
      intro l k hb; constructor <;> cases ch <;> simp only [sync, touch, touchRun, hp, hb]
    have hs : ∀ l d k, body (s.x.c.fr f).st = .store l d k → sync body w ch s.x h = h.tick w ∧ touch body w ch s.x.c = [] := by
      intro l d k hb; constructor <;> cases ch <;> simp only [sync, touch, touchRun, hp, hb]
    split at e
    · rename_i l k hb
      cases e
      rw [(ht l k hb).1, (ht l k hb).2]
      exact fine_stay (S := []) i ab ow F hp (by simp) rfl rfl (fun _ _ => rfl) rfl rfl rfl
    · rename_i l d k hb
      cases e
      rw [(hs l d k hb).1, (hs l d k hb).2]
      exact fine_stay (S := []) i ab ow F hp (by simp) rfl rfl (fun _ _ => rfl) rfl rfl rfl
    · rename_i hn1 hn2
      exact hc (fun f' hf' => by rw [hp] at hf'; cases hf'; exact ⟨fun l k h => hn1 l k h, fun l d k h => hn2 l d k h⟩) e
  · rename_i hnr
    exact hc (fun f' hf' => absurd hf' (hnr f')) e

end Verif.Own
