import Verif.Scan.Props
import Verif.Sync.Example

/-! C66: a scan of two elements by one worker, and by two. -/
namespace Verif.Scan
open Verif.Runtime (Ev Few)
open Verif.Sync (St ReachAny)
open Verif.Mem (MS subs)
open Verif.Algo (Loc)

/-- In place, chunks of one element. -/
def job : Job Nat := { pr := id, op := (· + ·), n := 1, path := [], src := 0, dst := 0, len := 2 }

theorem job_fit : job.Fit := ⟨Nat.add_assoc, by decide, .inl rfl⟩

/-- The leaves of the recursion. -/
def leaf (o : Algo.SOp) (iv : Algo.Ival) (path : List Bool) (beg r : Nat) : C Loc Nat := lin (Algo.riseLeaf id (· + ·) o iv path beg 1 beg) (.ret r)

def riseTree : C Loc Nat := .out (leaf .scan .lhs [false] 0 1) fun
  | some l => if l = 0 + 1 then .call (leaf .scan .rhs [true] 1 2) .ret
    else .call (leaf .fold .rhs [true] 1 0) fun _ => .join fun _ => combine (· + ·) .all 2 0 l
  | none => .call (leaf .fold .rhs [true] 1 0) fun _ => .join (only (combine (· + ·) .all 2 0))

def fallLeaf : C Loc Nat := lin (.seq (.atom1 (.tmp [true] 0) (.cell 0) .ok) (Algo.scanLoop id (· + ·) (.tmp [true] 0) 1 1 1)) (.ret 0)

def fallTree (r : Nat) : C Loc Nat := if r = 1 then .call fallLeaf fun _ => .ret 0 else fall id (· + ·) 1 .all [] 0 2 0 r

def tree : C Loc Nat := .call riseTree fun r => if r ≠ 2 then if 0 < r then .call (fallTree r) fun _ => .ret 0 else .ub else .ret 0

theorem rise_eq : rise id (· + ·) 1 .scan .all [] 0 2 0 = riseTree := by
  rw [rise]
  simp only [show ¬ (2 = 0) by decide, show ¬ (2 ≤ 1) by decide, show ¬ (2 < 2) by decide, if_false, show 2 / 2 = 1 by decide, show 2 - 1 = 1 by decide]
  have h : ∀ o iv path beg, rise id (fun a b : Nat => a + b) 1 o iv path beg 1 beg = leaf o iv path beg (if o = .scan then beg + 1 else 0) := by
    intro o iv path beg; rw [rise]; rfl
  unfold riseTree
  rw [h, h, h]
  rfl

theorem fall_eq (r : Nat) : fall id (· + ·) 1 .all [] 0 2 0 r = fallTree r := by
  unfold fallTree
  split
  · rename_i h
    subst h
    rw [fall, dif_pos (by decide), dif_neg (by decide), dif_neg (by decide), if_pos (by decide), fallImpl]
    rfl
  · rfl

theorem code_eq : job.code = tree := by
  show scan id (· + ·) 1 [] 0 0 2 = tree
  unfold scan tree
  rw [if_neg (by decide), rise_eq]
  congr 1
  funext r
  simp only [fall_eq, Nat.zero_add]

def exec : List (Nat × Runtime.Choice) → MS (St (T Loc Nat)) Nat Nat Loc → Runtime.Res (MS (St (T Loc Nat)) Nat Nat Loc)
  | [], s => .ok s
  | a :: l, s => Exn.Res.bind (Sync.step body a.1 (.go a.2) s) (exec l)

abbrev t (w : Nat) : Nat × Runtime.Choice := (w, .take)

def mem : Loc → Nat
  | .cell 0 => 1
  | .cell 1 => 2
  | _ => 0

def sub : MS (St (T Loc Nat)) Nat Nat Loc := Mem.submit (MS.start (.here (.go false tree)) mem) (.here (.go false tree)) 0

theorem sub_reach : ReachAny body pend (fun _ => False) okJob mem sub :=
  .submit 0 (.start _) rfl ⟨job, by rw [code_eq], job_fit, fun y' ⟨f, w, h, _⟩ => nomatch h⟩

theorem exec_reach {l : List (Nat × Runtime.Choice)} {s s' : MS (St (T Loc Nat)) Nat Nat Loc}
    (h : ReachAny body pend (fun _ => False) okJob mem s) (he : exec l s = .ok s') : ReachAny body pend (fun _ => False) okJob mem s' := by
  induction l generalizing s with
  | nil => cases he; exact h
  | cons a l ih =>
    simp only [exec] at he
    cases hs : Sync.step body a.1 (.go a.2) s with
    | ok s1 => rw [hs] at he; exact ih (h.step (ch := .go a.2) trivial hs) he
    | ub => rw [hs] at he; cases he
    | no => rw [hs] at he; cases he

/-- Worker 0 runs everything: the left half has been scanned when the fork answers, the right half is scanned too, and there is nothing left to do. -/
def alone : List (Nat × Runtime.Choice) := List.replicate 21 (t 0)

/-- Worker 1 steals the task while worker 0 scans the left half: the right half is only reduced (here: there is nothing to do), and is scanned in the sweep down. -/
def stolen : List (Nat × Runtime.Choice) :=
  [t 0, t 0, t 0, t 0, (1, .steal 0)] ++ List.replicate 5 (t 1) ++ List.replicate 7 (t 0) ++ List.replicate 15 (t 1)

set_option maxRecDepth 10000 in
theorem alone_ends : (Exn.get? (exec alone sub)).map (fun s => (s.m (.cell 0), s.m (.cell 1), s.x.c.log.head?, s.x.c.nf, subs s.x.c.log)) =
    some (1, 3, some (.done 0 (.ok 0)), 4, [(0, .here (.go false tree))]) := rfl

set_option maxRecDepth 10000 in
theorem stolen_ends : (Exn.get? (exec stolen sub)).map (fun s => (s.m (.cell 0), s.m (.cell 1), s.x.c.log.head?, s.x.c.nf, subs s.x.c.log)) =
    some (1, 3, some (.done 0 (.ok 0)), 6, [(0, .here (.go false tree))]) := rfl

/-- Both executions meet the hypotheses of `C66_scan`, which says what is in memory; they do not create the same tasks. -/
example : ∃ s s', ReachAny body pend (fun _ => False) okJob mem s ∧ ReachAny body pend (fun _ => False) okJob mem s' ∧ job.Fit ∧
    subs s.x.c.log = [(0, .here (.go false job.code))] ∧ subs s'.x.c.log = [(0, .here (.go false job.code))] ∧
    Ev.done 0 (.ok 0) ∈ s.x.c.log ∧ Ev.done 0 (.ok 0) ∈ s'.x.c.log ∧ s.x.c.nf = 4 ∧ s'.x.c.nf = 6 ∧
    s.m (.cell 0) = 1 ∧ s.m (.cell 1) = 3 ∧ s'.m (.cell 0) = 1 ∧ s'.m (.cell 1) = 3 := by
  obtain ⟨s, hs, e⟩ := Option.map_eq_some_iff.1 alone_ends
  obtain ⟨s', hs', e'⟩ := Option.map_eq_some_iff.1 stolen_ends
  simp only [Prod.mk.injEq] at e e'
  refine ⟨s, s', exec_reach sub_reach (Exn.get_ok hs), exec_reach sub_reach (Exn.get_ok hs'), job_fit, ?_, ?_, ?_, ?_, e.2.2.2.1, e'.2.2.2.1, e.1, e.2.1, e'.1, e'.2.1⟩
  · rw [e.2.2.2.2, code_eq]
  · rw [e'.2.2.2.2, code_eq]
  · exact List.mem_of_mem_head? e.2.2.1
  · exact List.mem_of_mem_head? e'.2.2.1

end Verif.Scan
