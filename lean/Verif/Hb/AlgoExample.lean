import Verif.Hb.Algo
import Verif.Hb.Outside
import Verif.Par.Example
import Verif.Scan.Example

/-! Executions of `fold` and `scan` by two workers that meet the hypotheses of C74. -/
namespace Verif.Hb
open Verif.Mem (subs)
open Verif.Runtime (Ev)
open Verif.Exn (Choice)

namespace Par
open Verif.Par (T Dat body pend ok vals task fold3 fold3_free fold3_eq mem3 stolen)

abbrev H := HS (T Algo.Loc (List Nat) Nat) Unit (Dat (List Nat) Nat) Algo.Loc

/-- A schedule. -/
def exec : List (Nat × Choice (Dat (List Nat) Nat)) → H → Option H
  | [], a => some a
  | (w, ch) :: l, a =>
    match step body w ch a with
    | .ok a' => exec l a'
    | _ => none

theorem exec_reach {m : Algo.Loc → List Nat} {l : List (Nat × Choice (Dat (List Nat) Nat))} {a a' : H} (h : ReachAny body pend (fun _ => False) ok (vals m) a)
    (hl : ∀ a ∈ l, Mem.Allowed (fun _ => False) a.2) (he : exec l a = some a') : ReachAny body pend (fun _ => False) ok (vals m) a' := by
  induction l generalizing a with
  | nil => cases he; exact h
  | cons y l ih =>
    obtain ⟨w, ch⟩ := y
    simp only [exec] at he
    split at he
    · rename_i a1 hs
      exact ih (h.step (hl (w, ch) (by simp)) hs) (fun a ha => hl a (by simp [ha])) he
    · cases he

/-- Thread 7 submits the fold of Verif.Par.Example to worker 0; worker 1 steals. -/
def after : Option H := exec stolen (submit (HS.start .ret (vals mem3)) 7 (task fold3) 0)

theorem after_reach {a : H} (h : after = some a) : ReachAny body pend (fun _ => False) ok (vals mem3) a := by
  refine exec_reach (.submit 7 0 (.start _) (Verif.Par.next_pend _).1 ⟨fold3, rfl, fold3_free, ?_⟩) ?_ h
  · rintro c ⟨f, w, h, _⟩; cases h
  · intro a ha
    simp only [stolen, List.mem_append, List.mem_cons, List.mem_replicate, List.not_mem_nil, or_false] at ha
    rcases ha with ((rfl | rfl | rfl) | ⟨_, rfl⟩) | ⟨_, rfl⟩ <;> trivial

theorem after_log : (after).map (fun a => (subs a.s.x.c.log, (a.h.kr 0).isSome, (a.tr.filterMap fun r => r.acc.map fun x => (r.task, x)).length)) =
    some ([(0, task fold3)], true, 12) := rfl

/-- C74 on it: worker 1 and worker 0 access the memory, thread 7 sees the result. -/
example : ∃ a a' : H, ReachAny body pend (fun _ => False) ok (vals mem3) a ∧ wait a 7 0 = .ok a' ∧ (∀ x ∈ a'.tr, x.no ∈ a'.h.kt 7) ∧ a'.s.m .res = .val [0, 1, 2] := by
  obtain ⟨a, ha, e⟩ := Option.map_eq_some_iff.1 after_log
  simp only [Prod.mk.injEq] at e
  obtain ⟨k, hk⟩ := Option.isSome_iff_exists.1 e.2.1
  obtain ⟨a', hw⟩ : ∃ a', wait a 7 0 = .ok a' := by unfold wait; rw [hk]; exact ⟨_, rfl⟩
  obtain ⟨h1, _, m', h2, h3, _⟩ := C74_fold (fun x => x) (· ++ ·) List.append_assoc (by omega) (by omega) fold3_eq (after_reach ha) e.1 hw
  refine ⟨a, a', after_reach ha, hw, h1, ?_⟩
  rw [h2]
  show Dat.val (m' .res) = _
  rw [h3]; rfl

end Par

namespace Out
open Verif.Scan (T tree job job_fit code_eq okJob mem stolen)
open Verif.Sync (St)
open Verif.Algo (Loc)

abbrev H := HS (St (T Loc Nat)) Nat Nat Loc

/-- A schedule. -/
def exec : List (Nat × Runtime.Choice) → H → Option H
  | [], a => some a
  | (w, ch) :: l, a =>
    match step Scan.body w (.go ch) a with
    | .ok a' => exec l a'
    | _ => none

theorem exec_reach {l : List (Nat × Runtime.Choice)} {a a' : H} (h : ReachAny Scan.body Scan.pend (fun _ => False) okJob mem a) (he : exec l a = some a') :
    ReachAny Scan.body Scan.pend (fun _ => False) okJob mem a' := by
  induction l generalizing a with
  | nil => cases he; exact h
  | cons y l ih =>
    obtain ⟨w, ch⟩ := y
    simp only [exec] at he
    split at he
    · rename_i a1 hs
      exact ih (h.step (ch := .go ch) trivial hs) he
    · cases he

/-- Thread 7 submits the scan of Verif.Scan.Example to worker 0; worker 1 steals. -/
def after : Option H := exec stolen (submit (HS.start (.here (.go false tree)) mem) 7 (.here (.go false tree)) 0)

theorem after_reach {a : H} (h : after = some a) : ReachAny Scan.body Scan.pend (fun _ => False) okJob mem a :=
  exec_reach (.submit 7 0 (.start _) rfl ⟨job, by rw [code_eq], job_fit, fun y' ⟨f, w, h, _⟩ => nomatch h⟩) h

set_option maxRecDepth 10000 in
theorem after_log : (after).map (fun a => (subs a.s.x.c.log, (a.h.kr 0).isSome)) = some ([(0, .here (.go false tree))], true) := rfl

/-- C74 on it. -/
example : ∃ a a' : H, ReachAny Scan.body Scan.pend (fun _ => False) okJob mem a ∧ wait a 7 0 = .ok a' ∧ (∀ x ∈ a'.tr, x.no ∈ a'.h.kt 7) ∧ a'.s.m (.cell 0) = 1 ∧ a'.s.m (.cell 1) = 3 := by
  obtain ⟨a, ha, e⟩ := Option.map_eq_some_iff.1 after_log
  simp only [Prod.mk.injEq] at e
  obtain ⟨k, hk⟩ := Option.isSome_iff_exists.1 e.2
  obtain ⟨a', hw⟩ : ∃ a', wait a 7 0 = .ok a' := by unfold wait; rw [hk]; exact ⟨_, rfl⟩
  obtain ⟨h1, _, h2, _⟩ := C74_scan (after_reach ha) job_fit (by rw [code_eq]; exact e.1) hw
  exact ⟨a, a', after_reach ha, hw, h1, h2 0 (by decide), h2 1 (by decide)⟩

end Out
end Verif.Hb
