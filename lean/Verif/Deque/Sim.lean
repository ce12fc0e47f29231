import Verif.Deque.InvStep

/-!
Backward simulation between the deque and its specification. When the owner's `pop` announces that it wants the last
item, who gets it is decided later by a CAS; in the specification the item is removed at the announcement, by whoever
will win. `w = some i` says "thief `i` will win", `w = none` "the owner will win, or nothing is undecided".
-/
namespace Verif.Deque
variable {ι V : Type} [DecidableEq ι]

def tAbs (top : Int) : TPc V → AT V
  | .idle => .idle
  | .ret r => .done r
  | .st0 => .pend false
  | .st1 t | .st2 t | .st3 t _ | .st4 t _ => .pend (decide (t ≠ top))

def oAbs (s : St ι V) (w : Option ι) : OPc V → AO V
  | .idle => .idle
  | .ret r => .done r
  | .push0 v | .push1 v _ | .push2 v _ _ | .push3 v _ _ _ | .push4 v _ _ | .push5 v _ _ | .push6 v _ => .pend (.push v)
  | .size0 | .size1 _ => .pend .size
  | .pop0 | .pop1 _ | .pop2 _ _ => .pend .pop
  | .pop3 b _ | .pop4 b _ => if w.isSome || decide (b < s.top) then .pend .pop else .done (.got (s.item b))
  | .pop5 _ => .done .none
  | .pop6 b buf | .pop7 b buf => .done (.got ((s.bufs buf).get b))

/-- `k` items from index `lo`. -/
def seg (f : Int → V) (lo : Int) (k : Nat) : List V := (List.range k).map (fun (i : Nat) => f (lo + (i : Int)))

def absOf (s : St ι V) (w : Option ι) : AState ι V :=
  { q := seg s.item s.top (s.bottom - s.top).toNat
    owner := oAbs s w s.opc
    thief := fun i => if w = some i then .done (.got (s.item s.top)) else tAbs s.top (s.tpc i) }

/-- Thief `i` may win the race for the last item. -/
def WOk (s : St ι V) (w : Option ι) : Prop :=
  ∀ i, w = some i → s.popping s.top ∧ s.top = s.bottom ∧
    (s.tpc i = .st2 s.top ∨ (∃ buf, s.tpc i = .st3 s.top buf) ∨ ∃ v, s.tpc i = .st4 s.top v)

theorem wok_none (s : St ι V) : WOk s none := fun _ h => by cases h

theorem wok_eq_none {s : St ι V} {w : Option ι} (h : WOk s w) (hp : ¬ (s.popping s.top ∧ s.top = s.bottom)) : w = none := by
  cases w with
  | none => rfl
  | some i => exact absurd ⟨(h i rfl).1, (h i rfl).2.1⟩ hp

/-- Internal steps of the specification. -/
inductive ATau : AState ι V → AState ι V → Prop where
  | refl {a} : ATau a a
  | head {a a' a''} : AStep a none a' → ATau a' a'' → ATau a a''

def ATrans (a : AState ι V) : Option (Ev ι V) → AState ι V → Prop
  | none, a' => ATau a a'
  | some e, a' => AStep a (some e) a'

theorem ATau.one {a a' : AState ι V} (h : AStep a none a') : ATau a a' := .head h .refl

theorem ATau.of_eq {a a' : AState ι V} (h : a = a') : ATau a a' := h ▸ .refl

theorem AHist.taus {h : List (Ev ι V)} {a a'} (ha : AHist h a) (ht : ATau a a') : AHist h a' := by
  induction ht with
  | refl => exact ha
  | head s _ ih => exact ih (.tau ha s)

theorem seg_zero (f : Int → V) (lo : Int) : seg f lo 0 = [] := rfl

theorem seg_succ (f : Int → V) (lo : Int) (k : Nat) : seg f lo (k + 1) = seg f lo k ++ [f (lo + (k : Int))] := by
  simp [seg, List.range_succ]

theorem seg_cons (f : Int → V) (lo : Int) (k : Nat) : seg f lo (k + 1) = f lo :: seg f (lo + 1) k := by
  simp only [seg, List.range_succ_eq_map, List.map_cons, List.map_map]
  congr 1
  · simp
  · apply List.map_congr_left
    intro i _
    simp only [Function.comp]
    congr 1
    omega

theorem seg_congr {f g : Int → V} {lo : Int} {k : Nat} (h : ∀ i, lo ≤ i → i < lo + k → f i = g i) :
    seg f lo k = seg g lo k := by
  apply List.map_congr_left
  intro i hi
  rw [List.mem_range] at hi
  exact h _ (by omega) (by omega)

/-- A step of the owner that changes only its program counter. -/
theorem absOf_opc (s : St ι V) (w : Option ι) (pc : OPc V) (w' : Option ι) (hw : w = w') :
    absOf { s with opc := pc } w' = { absOf s w with owner := oAbs s w' pc } := by
  subst hw; unfold absOf; congr 1

/-- A step of thief `i` that changes only its program counter. -/
theorem absOf_tpc (s : St ι V) (w : Option ι) (i : ι) (pc : TPc V) (hw : w ≠ some i) :
    absOf { s with tpc := setT s.tpc i pc } w =
      { absOf s w with thief := setT (absOf s w).thief i (tAbs s.top pc) } := by
  unfold absOf
  congr 1
  funext j
  simp only [setT]
  by_cases hj : j = i
  · subst hj; simp [hw]
  · simp [hj]

theorem astep_owner_id {s : St ι V} {w : Option ι} {pc : OPc V} (h : oAbs s w pc = oAbs s w s.opc) :
    absOf s w = absOf { s with opc := pc } w := by
  rw [absOf_opc s w pc w rfl, h]
  rfl

theorem absOf_thief_id (s : St ι V) (w : Option ι) (i : ι) (pc : TPc V) (h : tAbs s.top pc = tAbs s.top (s.tpc i)) :
    absOf s w = absOf { s with tpc := setT s.tpc i pc } w := by
  unfold absOf
  congr 1
  funext j
  simp only [setT]
  by_cases hj : j = i
  · subst hj; simp [h]
  · simp [hj]

theorem wok_opc {s : St ι V} {pc : OPc V} {w : Option ι} (h : WOk { s with opc := pc } w)
    (hp : St.popping { s with opc := pc } s.top → s.popping s.top) : WOk s w :=
  fun i hi => ⟨hp (h i hi).1, (h i hi).2⟩

end Verif.Deque
