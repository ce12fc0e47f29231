import Verif.Hb.Whole
import Verif.Scan.Props

/-!
C74 for tasks that fork `sync_outside`, and `scan`: Verif.Hb.Model over Verif.Sync.Model instead of Verif.Mem.Model.
-/
namespace Verif.Hb.Out
open Verif.Hb
open Verif.Runtime (Few Ev Res upd upd_apply upd_same upd_ne)
open Verif.Exn (Choice)
open Verif.Mem (MS Mono RaceFree subs)
open Verif.Sync (Act St seen pendS okS Disc Safe HotInv isAnswer)
variable {σ V E L : Type} [Inhabited E] [DecidableEq L]

/-- One step of worker `w`: as Verif.Sync.step (awaitables.hpp:55-508, promise.hpp:49-138, resume.hpp:38-78). A task that reads the answer of a `sync_outside` fork performs no operation that
synchronises (`sync` ticks); what the program orders is: what the child has done comes before. -/
def step (body : σ → Act σ V E L) (w : Nat) (ch : Choice E) (a : HS (St σ) V E L) : Res (HS (St σ) V E L) :=
  match Sync.step body w ch a.s with
  | .ok s' => .ok ⟨s', sync (seen body) w ch a.s.x a.h, order (seen body) w ch a s'.x, log (seen body) w ch a s'.x⟩
  | .ub => .ub
  | .no => .no

/-- Executions with any number of steals. -/
inductive ReachAny (body : σ → Act σ V E L) (pend : σ → Nat) (may : E → Prop) (ok : (σ → Prop) → σ → Prop) (m : L → E) : HS (St σ) V E L → Prop
  | start (y : σ) : ReachAny body pend may ok m (HS.start (.here y) m)
  | submit {a : HS (St σ) V E L} {c : σ} (t w : Nat) : ReachAny body pend may ok m a → pend c = 0 → ok (fun y => Unseen a t (.here y)) c →
      ReachAny body pend may ok m (submit a t (.here c) w)
  | step {a a' : HS (St σ) V E L} {w : Nat} {ch : Choice E} : ReachAny body pend may ok m a → Mem.Allowed may ch → step body w ch a = .ok a' → ReachAny body pend may ok m a'
  | wait {a a' : HS (St σ) V E L} (t f : Nat) : ReachAny body pend may ok m a → wait a t f = .ok a' → ReachAny body pend may ok m a'
  | other {a : HS (St σ) V E L} (t : Nat) : ReachAny body pend may ok m a → ReachAny body pend may ok m (other a t)
  | meet {a : HS (St σ) V E L} (t u : Nat) : ReachAny body pend may ok m a → ReachAny body pend may ok m (meet a t u)

variable {body : σ → Act σ V E L} {pend : σ → Nat} {dirty : σ → Prop} {may : E → Prop} {ok : (σ → Prop) → σ → Prop} {m : L → E} {J : List (V → Prop) → (V → Prop) → σ → Prop}

omit [Inhabited E] [DecidableEq L] in
theorem okS_mono (h : Mono ok) : Mono (okS pend ok) := by
  rintro O O' hO c ⟨y, rfl, h1, h2, h3⟩
  exact ⟨y, rfl, h1, h _ _ (fun y => hO _) _ h2, fun c' hc => h3 c' (hO _ hc)⟩

/-- The executions are those of `seen`. -/
theorem reach (hd : Disc body pend dirty) (hJ : Safe body may ok J) (hmono : Mono ok) (hp : ∀ y, pend y ≤ 65534) {a : HS (St σ) V E L} (h : ReachAny body pend may ok m a) :
    Hb.Reach (seen body) (pendS pend) may (okS pend ok) m a ∧ HotInv isAnswer a.s.x ∧ Few a.s.x.c := by
  have hd' := Sync.disc_seen hd
  have hp' : ∀ y, pendS pend y ≤ 65534 := fun y => by cases y <;> simp [pendS, hp]
  have add : ∀ {a : HS (St σ) V E L}, Hb.Reach (seen body) (pendS pend) may (okS pend ok) m a ∧ HotInv isAnswer a.s.x →
      Hb.Reach (seen body) (pendS pend) may (okS pend ok) m a ∧ HotInv isAnswer a.s.x ∧ Few a.s.x.c := fun h => ⟨h.1, h.2, few hd' hp' (reach_x h.1)⟩
  induction h with
  | start y => exact add ⟨.start _, fun f hf => hf.elim⟩
  | @submit a c t w _ h1 h2 ih =>
    refine add ⟨.submit t w ih.1 ih.2.2 h1 ⟨c, rfl, h1, h2, ?_⟩, ?_⟩
    · rintro c' ⟨f, w', hc', -⟩
      obtain ⟨A, hA, -, -, hroots, -⟩ := Mem.C61_refines hd' (reach_mem hd' (okS_mono hmono) ih.1)
      exact Sync.roots_here hA (f, c') (by rw [hroots]; exact Mem.mem_subs.2 ⟨w', hc'⟩)
    refine ih.2.1.keep fun g hg => ?_
    simp only [submit, Mem.submit, Exn.submit, Runtime.submit, Runtime.newFrame, upd_apply] at hg ⊢
    split
    · rename_i e; rw [if_pos e] at hg; exact hg.elim
    · exact ⟨rfl, fun v hv => ⟨hv, rfl⟩⟩
  | @step a a' w ch h0 hch hs ih =>
    have hm := reach_mem hd' (okS_mono hmono) ih.1
    unfold step at hs
    rw [Sync.step_eq hd hJ hm ih.2.1 ih.2.2] at hs
    cases e : Mem.step (seen body) w ch a.s with
    | ub => rw [e] at hs; cases hs
    | no => rw [e] at hs; cases hs
    | ok s' =>
      rw [e] at hs
      have hs' : Hb.step (seen body) w ch a = .ok a' := by unfold Hb.step; rw [e]; exact hs
      refine add ⟨.step ih.1 ih.2.2 hch hs', ?_⟩
      cases hs
      exact Sync.hot_step hd hm ih.2.1 e
  | wait t f _ hs ih =>
    refine add ⟨.wait t f ih.1 hs, ?_⟩
    unfold wait at hs
    split at hs <;> cases hs
    exact ih.2.1
  | other t _ ih => exact add ⟨.other t ih.1, ih.2.1⟩
  | meet t u _ ih => exact add ⟨.meet t u ih.1, ih.2.1⟩

/-- And, without the order, those of Verif.Sync. -/
theorem reach_sync (hd : Disc body pend dirty) (hJ : Safe body may ok J) (hmono : Mono ok) (hp : ∀ y, pend y ≤ 65534) {a : HS (St σ) V E L} (h : ReachAny body pend may ok m a) :
    Sync.ReachAny body pend may ok m a.s := by
  induction h with
  | start y => exact .start y
  | submit t w h0 h1 h2 ih => exact .submit w ih h1 (hmono _ _ (fun y => open_sub (Sync.disc_seen hd) (reach_x (reach hd hJ hmono hp h0).1) t _) _ h2)
  | step h0 hch hs ih =>
    unfold step at hs
    split at hs <;> cases hs
    rename_i s' hs
    exact .step ih hch hs
  | wait t f _ hs ih =>
    unfold wait at hs
    split at hs <;> cases hs
    exact ih
  | other t _ ih => exact ih
  | meet t u _ ih => exact ih

/-- **C74.** Of any two accesses to one location, one of which is a write, the earlier one happens before the later one, if a task that forks `sync_outside` and goes on without a join has no races. -/
theorem C74_outside (hd : Disc body pend dirty) (hJ : Safe body may ok J) (hmono : Mono ok) (hp : ∀ y, pend y ≤ 65534) (hrf : RaceFree (seen body) may (okS pend ok) m)
    {a : HS (St σ) V E L} (h : ReachAny body pend may ok m a) : a.tr.Pairwise fun r r' => Conflict r r' → r'.no ∈ r.known :=
  C73_ordered (Sync.disc_seen hd) (okS_mono hmono) hrf (reach hd hJ hmono hp h).1

section
open Verif.Scan (T Job okJob)
open Verif.Algo (Loc)
variable {V : Type} [Inhabited V]

omit [Inhabited V] in
theorem job_mono : Mono (okJob : (T Loc V → Prop) → _) := by
  rintro O O' h c ⟨j, rfl, h1, h2⟩
  exact ⟨j, rfl, h1, fun y' hy => h2 y' (h _ hy)⟩

theorem job_ok {m : Loc → V} {a : HS (St (T Loc V)) Nat V Loc} (h : ReachAny Scan.body Scan.pend (fun _ => False) okJob m a) : ReachAny Scan.body Scan.pend (fun _ => False) Scan.ok m a := by
  induction h with
  | start y => exact .start y
  | submit t w _ h1 h2 ih => exact .submit t w ih h1 (Scan.ok_of_job h2)
  | step _ h1 h2 ih => exact .step ih h1 h2
  | wait t f _ hs ih => exact .wait t f ih hs
  | other t _ ih => exact .other t ih
  | meet t u _ ih => exact .meet t u ih

/-- **C74, `lf::scan`.** Any scans, as long as none that may be running at the same time overlaps the output of another: no two accesses race. -/
theorem C74_scans {m : Loc → V} {a : HS (St (T Loc V)) Nat V Loc} (h : ReachAny Scan.body Scan.pend (fun _ => False) okJob m a) :
    a.tr.Pairwise fun r r' => Conflict r r' → r'.no ∈ r.known :=
  C74_outside Scan.disc Scan.safe Scan.mono Scan.pend_le (Scan.raceFree m) (job_ok h)

/-- **C74, `lf::scan`.** A thread has waited for a scan, the only call so far: it sees its result. -/
theorem C74_scan {m : Loc → V} {a a' : HS (St (T Loc V)) Nat V Loc} (h : ReachAny Scan.body Scan.pend (fun _ => False) okJob m a) {j : Job V} (hf : j.Fit) {f t : Nat}
    (hs : subs a.s.x.c.log = [(f, .here (.go false j.code))]) (hw : wait a t f = .ok a') :
    (∀ x ∈ a'.tr, x.no ∈ a'.h.kt t) ∧ Ev.done f (.ok 0) ∈ a'.s.x.c.log ∧
      (∀ i < j.len, a'.s.m (.cell (j.dst + i)) = ((Algo.cells m (j.src + 1) i).map j.pr).foldl j.op (j.pr (m (.cell j.src)))) ∧
      ∀ x, ¬ (j.dst ≤ x ∧ x < j.dst + j.len) → a'.s.m (.cell x) = m (.cell x) := by
  obtain ⟨⟨r, hr⟩, hk⟩ := C74_wait (Sync.disc_seen Scan.disc) (okS_mono Scan.mono) (reach Scan.disc Scan.safe Scan.mono Scan.pend_le (job_ok h)).1 hs hw
  have hsy : Sync.ReachAny Scan.body Scan.pend (fun _ => False) okJob m a.s := by
    clear hs hw hr hk
    induction h with
    | start y => exact .start y
    | submit t w h0 h1 h2 ih =>
      exact .submit w ih h1 (job_mono _ _ (fun y => open_sub (Sync.disc_seen Scan.disc) (reach_x (reach Scan.disc Scan.safe Scan.mono Scan.pend_le (job_ok h0)).1) t _) _ h2)
    | step h0 hch hs ih =>
      unfold step at hs
      split at hs <;> cases hs
      rename_i s' hs
      exact .step ih hch hs
    | wait t f _ hs ih =>
      unfold wait at hs
      split at hs <;> cases hs
      exact ih
    | other t _ ih => exact ih
    | meet t u _ ih => exact ih
  obtain ⟨rfl, h1, h2⟩ := Scan.C66_scan hsy hf hs hr
  unfold wait at hw
  split at hw <;> cases hw
  exact ⟨hk, hr, h1, h2⟩

end

end Verif.Hb.Out
