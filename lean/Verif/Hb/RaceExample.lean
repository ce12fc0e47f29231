import Verif.Hb.Reads
import Verif.Hb.Example

/-! An execution with a steal that meets the hypotheses of C73. -/
namespace Verif.Hb
open Verif.Mem (P prog pPend prog_disc idle idle_mono idle_pend idle_roots prog_raceFree foot_ok)

/-- C73 on the execution of `after`: task 2, on worker 1, writes cell 1, and task 0, on worker 0, reads it, after joining. These conflict; as the program has no races, all
such pairs are ordered, and the load reads what task 2 wrote, and could read nothing else. -/
example : ∃ a, Reach (prog id) pPend (fun _ => False) idle (fun _ => 0) a ∧ (∃ r ∈ a.tr, ∃ r' ∈ a.tr, Conflict r r' ∧ r.task = 0 ∧ r'.task = 2 ∧ r'.no < r.no) ∧
    (a.tr.Pairwise fun r r' => Conflict r r' → r'.no ∈ r.known) ∧ Mem.Acc.load 0 1 20 ∈ a.s.hist ∧
    ∃ o : List (Rec Nat × Mem.Acc Nat Nat), (o.map Prod.fst = a.tr.filter fun r => r.acc.isSome) ∧ o.map Prod.snd = a.s.hist ∧
      ∀ r f l d, (r, .load f l d) ∈ o → Sees (fun _ => 0) o r l d := by
  have h1 : (after id).map (fun a => (a.tr.any fun r => a.tr.any fun r' => decide (r.acc = some (1, false)) && decide (r'.acc = some (1, true)) &&
      decide (r.task = 0) && decide (r'.task = 2) && decide (r'.no < r.no)) && a.s.hist.any fun x => match x with | .load f l d => f == 0 && l == 1 && d == 20 | _ => false) =
      some true := by decide +kernel
  obtain ⟨a, ha, h2⟩ := Option.map_eq_some_iff.1 h1
  simp only [List.any_eq_true, Bool.and_eq_true, decide_eq_true_eq] at h2
  obtain ⟨⟨r, hr, r', hr', ⟨⟨⟨h3, h4⟩, h5⟩, h6⟩, h7⟩, x, hx, hy⟩ := h2
  have hl : x = .load 0 1 20 := by
    cases x with
    | load f l d => simp at hy; obtain ⟨⟨rfl, rfl⟩, rfl⟩ := hy; rfl
    | store f l d => cases hy
  obtain ⟨o, e1, e2, _, e4⟩ := C73_reads (prog_disc id) idle_mono (prog_raceFree _) (after_reach ha)
  exact ⟨a, after_reach ha, ⟨r, hr, r', hr', ⟨1, false, true, h3, h4, .inr rfl⟩, h5, h6, h7⟩, C73_footprint (prog_disc id) idle_pend idle_mono foot_ok idle_roots (after_reach ha), hl ▸ hx, o, e1, e2, e4⟩

end Verif.Hb
