import Verif.Scan.Tree

/-! No assertion of `scan` fails, whatever the `sync_outside` forks answer. -/
namespace Verif.Scan
open Verif.Algo (Cmd Out Loc Prog SOp Ival scanLoop foldLoop riseLeaf)
open Verif.Sync (Match)

section
variable {L V : Type} [Inhabited V]

/-- Sequential code that fails no assertion. -/
def Lin : Cmd L V Empty → Prop
  | .halt .ok => True
  | .halt _ => False
  | .atom _ _ _ _ => True
  | .seq p q => Lin p ∧ Lin q
  | .par _ _ => False

omit [Inhabited V] in
theorem ty_rd {w : L} (r : Par.Rd L V Empty) {k : C L V} {Qs Q} (h : Ty k Qs Q) : Ty (rd w r k) Qs Q := by
  induction r with
  | done x =>
    rcases x with e | u
    · exact nomatch e
    · exact h
  | ask l g ih => exact fun v => ih v

omit [Inhabited V] in
theorem ty_lin (p : Cmd L V Empty) (hp : Lin p) {k : C L V} {Qs Q} (h : Ty k Qs Q) : Ty (lin p k) Qs Q := by
  induction p generalizing k with
  | halt o =>
    cases o with
    | ok => exact h
    | exn e => exact nomatch e
    | ub => exact hp.elim
  | atom w n rs f => exact ty_rd _ h
  | seq p q ih1 ih2 => exact ih1 hp.1 (ih2 hp.2 h)
  | par p q => exact hp.elim
end

variable {V : Type} (pr : V → V) (op : V → V → V)

theorem lin_scanLoop (acc : Loc) (beg out k : Nat) : Lin (scanLoop pr op acc beg out k) := by
  induction k generalizing beg out with
  | zero => trivial
  | succ k ih => exact ⟨trivial, trivial, ih _ _⟩

theorem lin_foldLoop (proj : V → Except Empty V) (bop : V → V → Except Empty V) (acc : Loc) (head k : Nat) : Lin (foldLoop proj bop acc head k) := by
  induction k generalizing head with
  | zero => trivial
  | succ k ih => exact ⟨trivial, ih _⟩

theorem lin_leaf (o : SOp) (iv : Ival) (hiv : o = .fold → iv = .mid ∨ iv = .rhs) (path : List Bool) (beg size out : Nat) : Lin (riseLeaf pr op o iv path beg size out) := by
  unfold riseLeaf
  split
  · exact ⟨trivial, lin_foldLoop _ _ _ _ _, trivial⟩
  · trivial
  · rename_i h1 h2
    rcases hiv rfl with h | h
    · exact (h1 h).elim
    · exact (h2 h).elim
  · exact ⟨trivial, lin_scanLoop _ _ _ _ _ _⟩
  · exact ⟨trivial, lin_scanLoop _ _ _ _ _ _⟩
  · exact ⟨trivial, trivial, lin_scanLoop _ _ _ _ _ _⟩
  · exact ⟨trivial, trivial, lin_scanLoop _ _ _ _ _ _⟩

theorem ty_combine (iv : Ival) (size out : Nat) {r : Nat} {Q : Nat → Prop} (h : Q r) : Ty (combine op iv size out r) [] Q := by
  refine ty_lin _ ?_ ⟨rfl, h⟩
  split <;> trivial

theorem match_one {Q : Nat → Prop} {vs : List Nat} (h : Match [Q] vs) : ∃ v, vs = [v] ∧ Q v := by
  cases h with
  | cons h1 h2 => cases h2; exact ⟨_, rfl, h1⟩

theorem ty_rise (n : Nat) (hn : 0 < n) (o : SOp) (iv : Ival) (path : List Bool) (beg size out : Nat) (hiv : o = .fold → iv = .mid ∨ iv = .rhs) (hs : 0 < size) :
    Ty (rise pr op n o iv path beg size out) [] (fun r => o = .scan → beg < r ∧ r ≤ beg + size) := by
  induction size using Nat.strongRecOn generalizing o iv path beg out with
  | ind size ih =>
    rw [rise, if_neg (by omega)]
    split
    · exact ty_lin _ (lin_leaf pr op o iv hiv _ _ _ _) ⟨rfl, by rintro rfl; simp only [if_true]; omega⟩
    rw [if_neg (by omega)]
    have hl := fun o h => ih (size / 2) (by omega) o iv.l (false :: path) beg out h (by omega)
    have hr := fun o h => ih (size - size / 2) (by omega) o iv.r (true :: path) (beg + size / 2) (out + size / 2) h (by omega)
    have hir : iv.r = .mid ∨ iv.r = .rhs := by cases iv <;> simp [Ival.r]
    cases o with
    | scan =>
      simp only
      refine ⟨rfl, _, hl .scan (fun h => nomatch h), (fun v hv => ?_), ?_⟩
      · replace hv := hv rfl
        simp only
        split
        · exact ⟨_, hr .scan (fun h => nomatch h), fun v hv => ⟨rfl, fun _ => by have := hv rfl; omega⟩⟩
        · refine ⟨_, hr .fold (fun _ => hir), fun _ _ vs hm => ?_⟩
          exact ty_combine op iv size out (fun _ => by omega)
      · refine ⟨_, hr .fold (fun _ => hir), fun _ _ vs hm => ?_⟩
        obtain ⟨v, rfl, hv⟩ := match_one hm
        replace hv := hv rfl
        exact ty_combine op iv size out (fun _ => by omega)
    | fold =>
      refine ⟨rfl, _, hl .fold (fun _ => ?_), ?_⟩
      · rcases hiv rfl with rfl | rfl <;> exact .inl rfl
      · exact ⟨_, hr .fold (fun _ => hir), fun _ _ vs hm => ty_combine op iv size out (fun h => nomatch h)⟩

theorem ty_fallImpl (n : Nat) (hn : 0 < n) (iv : Ival) (path : List Bool) (beg size out : Nat) (hiv : iv = .mid ∨ iv = .rhs) (hs : 0 < size) :
    Ty (fallImpl pr op n iv path beg size out) [] (fun _ => True) := by
  induction size using Nat.strongRecOn generalizing iv path beg out with
  | ind size ih =>
    rw [fallImpl, if_neg (by rcases hiv with rfl | rfl <;> simp), if_neg (by omega)]
    split
    · refine ty_lin _ ?_ ⟨rfl, trivial⟩
      exact ⟨trivial, lin_scanLoop _ _ _ _ _ _⟩
    rw [if_neg (by omega)]
    refine ty_lin _ (by trivial) ?_
    have hil : iv.l = .mid ∨ iv.l = .rhs := by rcases hiv with rfl | rfl <;> simp [Ival.l]
    have hir : iv.r = .mid ∨ iv.r = .rhs := by rcases hiv with rfl | rfl <;> simp [Ival.r]
    exact ⟨rfl, _, ih (size / 2) (by omega) iv.l _ _ _ hil (by omega), _, ih (size - size / 2) (by omega) iv.r _ _ _ hir (by omega), fun _ _ _ _ => ⟨rfl, trivial⟩⟩

theorem ty_fall (n : Nat) (hn : 0 < n) (iv : Ival) (path : List Bool) (beg size out se : Nat) (h1 : beg < se) (h2 : se < beg + size) :
    Ty (fall pr op n iv path beg size out se) [] (fun _ => True) := by
  induction size using Nat.strongRecOn generalizing iv path beg out with
  | ind size ih =>
    rw [fall, dif_pos h2, dif_neg (by omega)]
    have hir : iv.r = .mid ∨ iv.r = .rhs := by cases iv <;> simp [Ival.r]
    have hi := ty_fallImpl pr op n hn iv.r (true :: path) (beg + size / 2) (size - size / 2) (out + size / 2) hir (by omega)
    simp only
    split
    · exact ⟨rfl, _, ih (size / 2) (by omega) _ _ _ _ h1 (by omega), _, hi, fun _ _ _ _ => ⟨rfl, trivial⟩⟩
    split
    · exact ⟨_, hi, fun _ _ => ⟨rfl, trivial⟩⟩
    · exact ⟨_, ih (size - size / 2) (by omega) _ _ _ _ (by omega) (by omega), fun _ _ => ⟨rfl, trivial⟩⟩

theorem ty_scan (n : Nat) (hn : 0 < n) (path : List Bool) (src dst len : Nat) : Ty (scan pr op n path src dst len) [] (· = 0) := by
  unfold scan
  split
  · exact ⟨rfl, rfl⟩
  refine ⟨_, ty_rise pr op n hn .scan .all path src len dst (fun h => nomatch h) (by omega), fun r hr => ?_⟩
  replace hr := hr rfl
  dsimp only
  split
  · rw [if_pos hr.1]
    exact ⟨_, ty_fall pr op n hn .all path src len dst r hr.1 (by omega), fun _ _ => ⟨rfl, rfl⟩⟩
  · exact ⟨rfl, rfl⟩

end Verif.Scan
