import Verif.Fld.Live

/-! An execution in which two children throw at the same time, on different workers, which meets the hypotheses of C76. -/
namespace Verif.Fld
open Verif.Hb (HS)

/-- A task that forks two children that throw, and joins them. -/
inductive Q where
  | first | second | both | one | fin | boom (n : Nat)
  deriving DecidableEq

def qbody : Q → Mem.Act Q Nat Nat Nat
  | .first => .fork (.boom 1) (fun _ => .second) (fun _ => .fin)
  | .second => .fork (.boom 2) (fun _ => .both) (fun _ => .one)
  | .both => .join (fun _ => .fin) (fun _ _ => .fin)
  | .one => .join (fun _ => .fin) (fun _ _ => .fin)
  | .fin => .ret 0
  | .boom n => .throw n

def qpend : Q → Nat
  | .second => 1
  | .both => 2
  | .one => 1
  | _ => 0

theorem qdisc : Mem.Disc qbody qpend (fun _ => False) := by
  refine ⟨?_, ?_, ?_, ?_, ?_, ?_, ?_, ?_⟩
  · intro s v h; cases s <;> cases h; exact ⟨rfl, id⟩
  · intro s v h; cases s <;> cases h; exact ⟨rfl, id⟩
  · intro s c k x h; cases s <;> cases h <;> exact ⟨rfl, fun _ => ⟨rfl, id⟩, fun _ => ⟨rfl, id⟩⟩
  · intro s c k x h; cases s <;> cases h
  · intro s k x h; cases s <;> cases h <;> exact ⟨fun _ => rfl, fun _ _ => rfl⟩
  · intro s d k x h; cases s <;> cases h
  · intro s l k h; cases s <;> cases h
  · intro s l d k h; cases s <;> cases h

theorem qpend_le (y : Q) : qpend y ≤ 65534 := by cases y <;> simp [qpend]

abbrev QReach : FS Q Nat Nat Nat → Prop := Reach qbody qpend (fun _ => False) (fun _ _ => True) (fun _ => 0)

theorem qfew {o : FS Q Nat Nat Nat} (h : QReach o) : Runtime.Few o.a.s.x.c := Hb.few qdisc qpend_le (Hb.reach_x (reach_hb h))

def exec : List (Nat × Runtime.Choice) → FS Q Nat Nat Nat → Option (FS Q Nat Nat Nat)
  | [], o => some o
  | (w, ch) :: l, o =>
    match step qbody w (.go ch) o with
    | .ok o' => exec l o'
    | _ => none

theorem exec_reach {l : List (Nat × Runtime.Choice)} {o o' : FS Q Nat Nat Nat} (h : QReach o) (he : exec l o = some o') : QReach o' := by
  induction l generalizing o with
  | nil => cases he; exact h
  | cons y l ih =>
    obtain ⟨w, ch⟩ := y
    simp only [exec] at he
    split at he
    · rename_i o1 hs
      exact ih (Reach.step (ch := .go ch) h (qfew h) trivial hs) he
    · cases he

def t (w : Nat) : Nat × Runtime.Choice := (w, .take)

/-- Worker 0 takes the task and forks the first child; worker 1 steals the task and forks the second. Both children throw (steps 6 and 7) and report
(steps 8 to 11); then the task joins, and throws (step 13). -/
def both : List (Nat × Runtime.Choice) := [t 0, t 0, (1, .steal 0), t 1, t 1, t 0, t 1, t 1, t 0, t 0, t 1, t 1, t 1]

def after (l : List (Nat × Runtime.Choice)) : Option (FS Q Nat Nat Nat) := exec l (submit ⟨HS.start .first fun _ => 0, []⟩ 7 .first 0)

theorem after_reach {l : List (Nat × Runtime.Choice)} {o : FS Q Nat Nat Nat} (h : after l = some o) : QReach o :=
  exec_reach (.submit 7 0 (.start _) (qfew (.start _)) rfl trivial) h

/-- C76 on it: the two exceptions are concurrent (neither of the steps 6 and 7 happens before the other), the second one does not touch the pointer, and the end of the join comes after the first. -/
theorem C76_concurrent : ∃ o, QReach o ∧
    (∃ r ∈ o.tr, ∃ r' ∈ o.tr, r.frame = r'.frame ∧ r.mbr = .flag ∧ r'.mbr = .flag ∧ r.kind = .atomic ∧ r'.kind = .atomic ∧ r.no = 7 ∧ r'.no = 6 ∧ r'.no ∉ r.known) ∧
    (∃ r ∈ o.tr, ∃ r' ∈ o.tr, r.no = 13 ∧ r'.no = 6 ∧ r.mbr = .eptr ∧ Clash r r') ∧
    o.tr.Pairwise fun later earlier => Clash later earlier → earlier.no ∈ later.known := by
  have h1 : (after both).map (fun o =>
      (o.tr.any fun r => o.tr.any fun r' => decide (r.frame = r'.frame ∧ r.mbr = .flag ∧ r'.mbr = .flag ∧ r.kind = .atomic ∧ r'.kind = .atomic ∧ r.no = 7 ∧ r'.no = 6 ∧ r'.no ∉ r.known)) &&
      (o.tr.any fun r => o.tr.any fun r' => decide (r.no = 13 ∧ r'.no = 6 ∧ r.mbr = .eptr ∧
        r.frame = r'.frame ∧ r.mbr = r'.mbr ∧ ¬ (r.kind = .read ∧ r'.kind = .read) ∧ ¬ (r.kind = .atomic ∧ r'.kind = .atomic)))) = some true := by decide +kernel
  obtain ⟨o, ho, h2⟩ := Option.map_eq_some_iff.1 h1
  simp only [List.any_eq_true, Bool.and_eq_true, decide_eq_true_eq] at h2
  exact ⟨o, after_reach ho, h2.1, h2.2, C76_frames qdisc (after_reach ho)⟩

/-- C78 on it: in the last step both children have ended, and the step uses the frame of the parent only. -/
example : ∃ o o', QReach o ∧ step qbody 1 (.go .take) o = .ok o' ∧ (∃ v, Runtime.Ev.done 1 v ∈ o.a.s.x.c.log) ∧ (∃ v, Runtime.Ev.done 2 v ∈ o.a.s.x.c.log) ∧
    (∃ r ∈ o'.tr, r.no = 13 ∧ r.frame = 0) ∧ ∃ new, o'.tr = new ++ o.tr ∧ ∀ r ∈ new, r.frame < o'.a.s.x.c.nf ∧ ∀ v, Runtime.Ev.done r.frame v ∉ o.a.s.x.c.log := by
  have h1 : (after (both.take 12)).map (fun o =>
      (o.a.s.x.c.log.any fun e => match e with | .done 1 _ => true | _ => false) && (o.a.s.x.c.log.any fun e => match e with | .done 2 _ => true | _ => false) &&
      (match step qbody 1 (.go .take) o with | .ok o' => o'.tr.any fun r => decide (r.no = 13 ∧ r.frame = 0) | _ => false)) = some true := by decide +kernel
  obtain ⟨o, ho, h2⟩ := Option.map_eq_some_iff.1 h1
  simp only [Bool.and_eq_true] at h2
  obtain ⟨⟨h3, h4⟩, h5⟩ := h2
  split at h5
  · rename_i o' hs
    simp only [List.any_eq_true, decide_eq_true_eq] at h3 h4 h5
    obtain ⟨e, he, h3⟩ := h3
    obtain ⟨e', he', h4⟩ := h4
    have hr := after_reach ho
    refine ⟨o, o', hr, hs, ?_, ?_, h5, C78_live (ch := .go .take) qdisc hr (qfew hr) trivial hs⟩
    · split at h3
      · exact ⟨_, he⟩
      · cases h3
    · split at h4
      · exact ⟨_, he'⟩
      · cases h4
  · cases h5

end Verif.Fld
