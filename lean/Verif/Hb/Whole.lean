import Verif.Hb.Reads
import Verif.Mem.Determ

/-!
C74: what a thread knows that has waited for the only task that was submitted; executions without a bound on steals.
-/
namespace Verif.Hb
open Verif.Runtime (Few Ev status upd upd_apply upd_same upd_ne)
open Verif.Exn (XS Choice)
open Verif.Mem (MS Act FJ XR Mono RaceFree subs)
variable {σ V E L : Type} [Inhabited E] [DecidableEq L] {body : σ → Act σ V E L} {pend : σ → Nat} {dirty : σ → Prop} {may : E → Prop} {ok : (σ → Prop) → σ → Prop} {m : L → E}

theorem path_roots {P : Nat → Prop} {Q : Nat → Nat → Prop} {A A' : FJ σ V E L} (p : Mem.Path body may P Q A A') : A'.roots = A.roots := by
  have st : ∀ {f : Nat} {B B' : FJ σ V E L}, FJ.Step body may f B B' → B'.roots = B.roots := fun h => by cases h <;> rfl
  cases p with
  | stay => rfl
  | one _ s => exact st s
  | two _ _ _ _ s => exact (st s).trans rfl

/-- The submissions do not change in a step. -/
theorem subs_step (hd : Mem.Disc body pend dirty) {s s' : MS σ V E L} (h : Mem.Reach body pend may ok m s) (hf : Few s.x.c) {w : Nat} {ch : Choice E} (hch : Mem.Allowed may ch)
    (hs : Mem.step body w ch s = .ok s') : subs s'.x.c.log = subs s.x.c.log := by
  obtain ⟨A, hA, hr, _⟩ := Mem.sim hd h
  have hc : (∀ f, s.x.c.pc w = .run f → Mem.NoAcc body (s.x.c.fr f).st) → Mem.control body w ch s = .ok s' → subs s'.x.c.log = subs s.x.c.log := by
    intro hn h1
    unfold Mem.control at h1
    cases hx : Exn.step (Mem.ctl body) w ch s.x with
    | no => rw [hx] at h1; cases h1
    | ub => rw [hx] at h1; cases h1
    | ok x =>
      rw [hx] at h1
      cases h1
      obtain ⟨A', _, h2, _, _, pa⟩ := Mem.sim_control hd (Mem.reach_x h) hf hch hn hx hA hr
      show subs x.c.log = _
      rw [← h2.rts, path_roots pa, hr.rts]
  unfold Mem.step at hs
  split at hs
  · split at hs
    · cases hs; rfl
    · cases hs; rfl
    · rename_i f hp _ hn1 hn2
      refine hc (fun g hg => ?_) hs
      rw [hp] at hg; cases hg
      exact ⟨fun l k h => hn1 l k h, fun l d k h => hn2 l d k h⟩
  · rename_i hn
    exact hc (fun f hf => absurd hf (hn f)) hs

theorem open_sub (hd : Mem.Disc body pend dirty) {a : HS σ V E L} (h : Exn.Reach (Mem.ctl body) pend (fun _ => True) a.s.x) (t : Nat) (c : σ) (ho : a.s.open c) : Unseen a t c := by
  obtain ⟨f, w, h1, h2⟩ := ho
  refine ⟨f, w, h1, ?_⟩
  rintro ⟨⟨r, h3⟩, _⟩
  exact h2 (Mem.ended_iff.1 ⟨r, Mem.done_mode (Exn.history_legal (Mem.disc_ctl hd) h) h3⟩)

/-- The executions are executions of Verif.Mem. -/
theorem reach_mem (hd : Mem.Disc body pend dirty) (hmono : Mono ok) {a : HS σ V E L} (h : Reach body pend may ok m a) : Mem.Reach body pend may ok m a.s := by
  induction h with
  | start y => exact .start y
  | submit t w h0 hf hp ho ih => exact .submit w ih hf hp (hmono _ _ (open_sub hd (reach_x h0) t) _ ho)
  | step h0 hf hch hs ih =>
    unfold step at hs
    split at hs <;> cases hs
    rename_i s' hs
    exact .step ih hf hch hs
  | wait t f _ hs ih =>
    unfold wait at hs
    split at hs <;> cases hs
    exact ih
  | other t _ ih => exact ih
  | meet t u _ ih => exact ih

/-- Executions with any number of steals. -/
inductive ReachAny (body : σ → Act σ V E L) (pend : σ → Nat) (may : E → Prop) (ok : (σ → Prop) → σ → Prop) (m : L → E) : HS σ V E L → Prop
  | start (y : σ) : ReachAny body pend may ok m (HS.start y m)
  | submit {a : HS σ V E L} {c : σ} (t w : Nat) : ReachAny body pend may ok m a → pend c = 0 → ok (Unseen a t) c → ReachAny body pend may ok m (submit a t c w)
  | step {a a' : HS σ V E L} {w : Nat} {ch : Choice E} : ReachAny body pend may ok m a → Mem.Allowed may ch → step body w ch a = .ok a' → ReachAny body pend may ok m a'
  | wait {a a' : HS σ V E L} (t f : Nat) : ReachAny body pend may ok m a → wait a t f = .ok a' → ReachAny body pend may ok m a'
  | other {a : HS σ V E L} (t : Nat) : ReachAny body pend may ok m a → ReachAny body pend may ok m (other a t)
  | meet {a : HS σ V E L} (t u : Nat) : ReachAny body pend may ok m a → ReachAny body pend may ok m (meet a t u)

theorem few (hd : Mem.Disc body pend dirty) (hp : ∀ y, pend y ≤ 65534) {x : XS σ V E} (h : Exn.Reach (Mem.ctl body) pend (fun _ => True) x) : Few x.c := by
  refine (Exn.reach_of_bounded (may := fun _ => True) (Mem.disc_ctl hd) hp ?_).2
  induction h with
  | start y => exact .start y
  | submit w _ _ hp ih => exact .submit w ih hp
  | step _ _ hc hs ih => exact .step ih hc hs

/-- C73: a program whose scopes fork at most 65534 children meets the bound of `Reach` in every schedule. -/
theorem C73_bounded (hd : Mem.Disc body pend dirty) (hp : ∀ y, pend y ≤ 65534) {a : HS σ V E L} (h : ReachAny body pend may ok m a) : Reach body pend may ok m a := by
  induction h with
  | start y => exact .start y
  | submit t w _ h2 h3 ih => exact .submit t w ih (few hd hp (reach_x ih)) h2 h3
  | step _ h2 h3 ih => exact .step ih (few hd hp (reach_x ih)) h2 h3
  | wait t f _ hs ih => exact .wait t f ih hs
  | other t _ ih => exact .other t ih
  | meet t u _ ih => exact .meet t u ih

theorem post_par {w : Nat} {ch : Choice E} {x : XS σ V E} {g : Ord} {c : Nat} (hc : c ≠ x.c.nf) : (post body w ch x g).par c = g.par c := by
  have en : ∀ f, (g.ended f).par c = g.par c := fun f => by unfold Ord.ended; split <;> rfl
  unfold post
  repeat' split
  all_goals first | exact en _ | rfl | (simp only [Ord.fork, Ord.call, upd_ne _ _ hc])

theorem merge_par {w : Nat} {ch : Choice E} {x x' : XS σ V E} {g : Ord} : (merge body w ch x x' g).par = g.par := by
  unfold merge
  repeat' split
  all_goals rfl

theorem order_par {w : Nat} {ch : Choice E} {a : HS σ V E L} {x' : XS σ V E} {c : Nat} (hc : c ≠ a.s.x.c.nf) : (order body w ch a x').par c = a.g.par c := by
  unfold order
  rw [post_par hc]
  split
  · exact congrFun merge_par c
  · exact congrFun merge_par c

/-- Tasks without a parent were submitted. -/
theorem root_sub (hd : Mem.Disc body pend dirty) (hmono : Mono ok) {a : HS σ V E L} (h : Reach body pend may ok m a) :
    ∀ c, c < a.s.x.c.nf → a.g.par c = .root → ∃ y, (c, y) ∈ subs a.s.x.c.log := by
  induction h with
  | start y => exact fun c hc => absurd hc (Nat.not_lt_zero c)
  | @submit a y t w h0 hf hp ho ih =>
    intro c hc he
    by_cases e : c = a.s.x.c.nf
    · subst e; exact ⟨y, List.mem_cons_self ..⟩
    · have h1 : c < a.s.x.c.nf + 1 := hc
      have h2 : a.g.par c = .root := by
        have h3 : upd a.g.par a.s.x.c.nf .root c = .root := he
        rwa [upd_ne _ _ e] at h3
      obtain ⟨z, hz⟩ := ih c (by omega) h2
      exact ⟨z, List.mem_cons_of_mem _ hz⟩
  | @step a a' w ch h0 hf hch hs ih =>
    unfold step at hs
    split at hs <;> cases hs
    rename_i s' hs
    have hsub := subs_step hd (reach_mem hd hmono h0) hf hch hs
    intro c hc he
    show ∃ y, (c, y) ∈ subs s'.x.c.log
    rw [hsub]
    have hc : c < s'.x.c.nf := hc
    have he : (order body w ch a s'.x).par c = .root := he
    have hnf : s'.x.c.nf = a.s.x.c.nf ∨ (s'.x.c.nf = a.s.x.c.nf + 1 ∧ (order body w ch a s'.x).par a.s.x.c.nf ≠ .root) := by
      have hctl : (∀ f, a.s.x.c.pc w = .run f → Mem.NoAcc body (a.s.x.c.fr f).st) → Mem.control body w ch a.s = .ok s' →
          s'.x.c.nf = a.s.x.c.nf ∨ (s'.x.c.nf = a.s.x.c.nf + 1 ∧ (order body w ch a s'.x).par a.s.x.c.nf ≠ .root) := by
        intro hn h1
        unfold Mem.control at h1
        cases hx : Exn.step (Mem.ctl body) w ch a.s.x with
        | no => rw [hx] at h1; cases h1
        | ub => rw [hx] at h1; cases h1
        | ok x =>
          rw [hx] at h1
          cases h1
          rcases nf_step hn hx with e | ⟨f, o, hp, rfl, hb⟩
          · exact .inl e
          · right
            rcases hb with ⟨c, k, z, hb⟩ | ⟨c, k, z, hb⟩
            · refine ⟨?_, ?_⟩
              · simp only [Exn.step, hp, Exn.run, Mem.ctl, hb] at hx
                cases hx; rfl
              · simp only [order, merge, who, post, hp, hb, Ord.fork, Ord.act, upd_same]; exact fun h => nomatch h
            · refine ⟨?_, ?_⟩
              · simp only [Exn.step, hp, Exn.run, Mem.ctl, hb] at hx
                cases hx; rfl
              · simp only [order, merge, who, post, hp, hb, Ord.call, Ord.act, upd_same]; exact fun h => nomatch h
      unfold Mem.step at hs
      split at hs
      · split at hs
        · cases hs; exact .inl rfl
        · cases hs; exact .inl rfl
        · rename_i f hp _ hn1 hn2
          refine hctl (fun g hg => ?_) hs
          rw [hp] at hg; cases hg
          exact ⟨fun l k h => hn1 l k h, fun l d k h => hn2 l d k h⟩
      · rename_i hn
        exact hctl (fun f hf => absurd hf (hn f)) hs
    have hne : c ≠ a.s.x.c.nf := by
      rintro rfl
      rcases hnf with e | ⟨_, e⟩
      · omega
      · exact e he
    rw [order_par hne] at he
    exact ih c (by rcases hnf with e | ⟨e, _⟩ <;> omega) he
  | @wait a a' t f h0 hs ih =>
    unfold wait at hs
    split at hs <;> cases hs
    exact ih
  | other t _ ih => exact ih
  | meet t u _ ih => exact ih

/-- Every task is one that was submitted, or below one. -/
theorem under_root (hd : Mem.Disc body pend dirty) (hmono : Mono ok) {a : HS σ V E L} (h : Reach body pend may ok m a) :
    ∀ c, c < a.s.x.c.nf → ∃ f y, (f, y) ∈ subs a.s.x.c.log ∧ Under a.g.par f c := by
  intro c
  induction c using Nat.strongRecOn with
  | ind c ih =>
    intro hc
    cases hp : a.g.par c with
    | root =>
      obtain ⟨y, hy⟩ := root_sub hd hmono h c hc hp
      exact ⟨c, y, hy, .self⟩
    | fork p =>
      have hlt := (reach_all hd h).j.pl c hc p (.inl hp)
      obtain ⟨f, y, hy, hu⟩ := ih p hlt (by omega)
      exact ⟨f, y, hy, .fork hp hu⟩
    | call p =>
      have hlt := (reach_all hd h).j.pl c hc p (.inr hp)
      obtain ⟨f, y, hy, hu⟩ := ih p hlt (by omega)
      exact ⟨f, y, hy, .call hp hu⟩

/-- A root whose semaphore was released has ended. -/
theorem signal_done (hd : Mem.Disc body pend dirty) {a : HS σ V E L} (h : Reach body pend may ok m a) {f : Nat} {k : List Nat} (hk : a.h.kr f = some k) : ∃ r, Ev.done f r ∈ a.s.x.c.log := by
  obtain ⟨B, i⟩ := (reach_all hd h).i
  have hg := (i.root f k hk).2
  obtain ⟨es, r, hr, hrel⟩ := Exn.reach_rel (Mem.disc_ctl hd) (reach_x h) fun _ => .nil
  have hi := Verif.Runtime.reach_inv (Exn.disc_tgt (Mem.disc_ctl hd)) hr
  have h1 := hi.log.go f (by rw [hrel.base.loc]; exact hg)
  rw [hrel.base.log.status f] at h1
  obtain ⟨r, h2⟩ := Mem.ended_iff.2 h1
  exact ⟨r, Mem.done_of_mode h2⟩

/-- C74: a thread waits for a task and nothing else was submitted: then the task has ended, and everything any task has done happens before what the thread does next. -/
theorem C74_wait (hd : Mem.Disc body pend dirty) (hmono : Mono ok) {a a' : HS σ V E L} (h : Reach body pend may ok m a) {t f : Nat} {y : σ} (hs : subs a.s.x.c.log = [(f, y)])
    (hw : wait a t f = .ok a') : (∃ r, Ev.done f r ∈ a.s.x.c.log) ∧ ∀ r ∈ a.tr, r.no ∈ a'.h.kt t := by
  refine ⟨?_, fun r hr => ?_⟩
  · unfold wait at hw
    split at hw <;> cases hw
    exact signal_done hd h ‹_›
  · obtain ⟨g, z, h1, h2⟩ := under_root hd hmono h r.task ((reach_all hd h).j.rt r hr).1
    rw [hs] at h1
    cases List.mem_singleton.1 h1
    exact C72_wait hd h hw r hr h2

end Verif.Hb
