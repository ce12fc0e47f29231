import Verif.Algo.ScanModel
import Verif.Algo.FoldLemmas

/-! Which cells the pieces of `scan` read and write, and absence of conflicts between parallel pieces. -/
namespace Verif.Algo
variable {V E : Type}

/-- The cells written satisfy `W`, the cells read satisfy `R`, everything else touched is a local of the sub-tree. -/
structure Foot (p : Prog V E) (path : List Bool) (W R : Nat → Prop) : Prop where
  writes : ∀ l, Writes p l → (∃ c, l = .cell c ∧ W c) ∨ Own path l
  reads : ∀ l, Reads p l → (∃ c, l = .cell c ∧ R c) ∨ Own path l
  race : RaceFree p

theorem Foot.mono {p : Prog V E} {path W R W' R'} (h : Foot p path W R) (hw : ∀ c, W c → W' c) (hr : ∀ c, R c → R' c) :
    Foot p path W' R' :=
  ⟨fun l hl => (h.writes l hl).imp (fun ⟨c, a, b⟩ => ⟨c, a, hw c b⟩) id,
   fun l hl => (h.reads l hl).imp (fun ⟨c, a, b⟩ => ⟨c, a, hr c b⟩) id, h.race⟩

theorem Foot.child {p : Prog V E} {b path W R} (h : Foot p (b :: path) W R) : (∀ l, Writes p l → (∃ c, l = .cell c ∧ W c) ∨ Own path l) ∧ (∀ l, Reads p l → (∃ c, l = .cell c ∧ R c) ∨ Own path l) :=
  ⟨fun l hl => (h.writes l hl).imp id own_child, fun l hl => (h.reads l hl).imp id own_child⟩

theorem Foot.up {p : Prog V E} {b path W R} (h : Foot p (b :: path) W R) : Foot p path W R :=
  ⟨h.child.1, h.child.2, h.race⟩

theorem Foot.halt {o path} {W R} : Foot (.halt o : Prog V E) path W R :=
  ⟨fun _ h => h.elim, fun _ h => h.elim, trivial⟩

theorem Foot.seq {p q : Prog V E} {path W R} (hp : Foot p path W R) (hq : Foot q path W R) :
    Foot (.seq p q) path W R :=
  ⟨fun l hl => hl.elim (hp.writes l) (hq.writes l), fun l hl => hl.elim (hp.reads l) (hq.reads l), hp.race, hq.race⟩

theorem Foot.par {p q : Prog V E} {path W1 R1 W2 R2 W R} (hp : Foot p (false :: path) W1 R1)
    (hq : Foot q (true :: path) W2 R2)
    (h1 : ∀ c, W1 c → ¬ W2 c ∧ ¬ R2 c) (h2 : ∀ c, W2 c → ¬ R1 c)
    (hw : ∀ c, W1 c ∨ W2 c → W c) (hr : ∀ c, R1 c ∨ R2 c → R c) : Foot (.par p q) path W R := by
  have up1 := (hp.up.mono (W' := W) (R' := R) (fun c h => hw c (.inl h)) (fun c h => hr c (.inl h)))
  have up2 := (hq.up.mono (W' := W) (R' := R) (fun c h => hw c (.inr h)) (fun c h => hr c (.inr h)))
  refine ⟨fun l hl => hl.elim (up1.writes l) (up2.writes l), fun l hl => hl.elim (up1.reads l) (up2.reads l),
    ⟨?_, ?_⟩, hp.race, hq.race⟩
  · intro l hl
    rcases hp.writes l hl with ⟨c, rfl, hc⟩ | ho
    · constructor
      · intro hr
        rcases hq.reads _ hr with ⟨c', h, hc'⟩ | ⟨_, _, h⟩
        · cases h; exact (h1 c hc).2 hc'
        · cases h
      · intro hr
        rcases hq.writes _ hr with ⟨c', h, hc'⟩ | ⟨_, _, h⟩
        · cases h; exact (h1 c hc).1 hc'
        · cases h
    · constructor
      · intro hr
        rcases hq.reads _ hr with ⟨c', rfl, hc'⟩ | h
        · obtain ⟨_, _, h⟩ := ho; cases h
        · exact own_disjoint ho h
      · intro hr
        rcases hq.writes _ hr with ⟨c', rfl, hc'⟩ | h
        · obtain ⟨_, _, h⟩ := ho; cases h
        · exact own_disjoint ho h
  · intro l hl hr
    rcases hq.writes l hl with ⟨c, rfl, hc⟩ | ho
    · rcases hp.reads _ hr with ⟨c', h, hc'⟩ | ⟨_, _, h⟩
      · cases h; exact h2 c hc hc'
      · cases h
    · rcases hp.reads _ hr with ⟨c', rfl, hc'⟩ | h
      · obtain ⟨_, _, h⟩ := ho; cases h
      · exact own_disjoint h ho

/-- `cell c` with `P c`, or a local of the node. -/
inductive At (path : List Bool) (P : Nat → Prop) : Loc → Prop where
  | cell {c} : P c → At path P (.cell c)
  | tmp {k} : At path P (.tmp path k)

theorem At.out {path P l} (h : At path P l) : (∃ c, l = .cell c ∧ P c) ∨ Own path l := by
  cases h with
  | cell h => exact .inl ⟨_, rfl, h⟩
  | tmp => exact .inr ⟨[], _, rfl⟩

theorem Foot.atom1 {w a : Loc} {f : V → Except E V} {path W R} (hw : At path W w) (ha : At path R a) :
    Foot (.atom1 w a f) path W R :=
  ⟨fun l hl => by rw [show l = w from hl]; exact hw.out,
   fun l ⟨_, hl⟩ => by rw [← show a = l from hl]; exact ha.out, trivial⟩

theorem Foot.atom2 {w a b : Loc} {f : V → V → Except E V} {path W R} (hw : At path W w) (ha : At path R a)
    (hb : At path R b) : Foot (.atom2 w a b f) path W R :=
  ⟨fun l hl => by rw [show l = w from hl]; exact hw.out,
   fun l ⟨_, hl⟩ => by
     rcases reads2 hl with rfl | rfl
     · exact ha.out
     · exact hb.out, trivial⟩

variable (pr : V → V) (op : V → V → V)

/-- Cells in `[lo, hi)`. -/
abbrev In (lo hi c : Nat) : Prop := lo ≤ c ∧ c < hi

theorem scanLoop_foot (path : List Bool) (beg out k : Nat) :
    Foot (scanLoop (E := E) pr op (.tmp path 0) beg out k) path (In out (out + k)) (In beg (beg + k)) := by
  induction k generalizing beg out with
  | zero => exact .halt
  | succ k ih =>
    refine .seq (.atom2 .tmp .tmp (.cell ⟨by omega, by omega⟩)) (.seq (.atom1 (.cell ⟨by omega, by omega⟩) .tmp) ?_)
    exact (ih (beg + 1) (out + 1)).mono (fun c h => ⟨by omega, by omega⟩) (fun c h => ⟨by omega, by omega⟩)

theorem foldLoop_foot' (path : List Bool) (head k : Nat) (proj : V → Except E V) (bop : V → V → Except E V) {W : Nat → Prop} :
    Foot (foldLoop proj bop (.tmp path 0) head k) path W (In head (head + k)) := by
  induction k generalizing head with
  | zero => exact .halt
  | succ k ih =>
    refine .seq (.atom2 .tmp .tmp (.cell ⟨by omega, by omega⟩)) ?_
    exact (ih (head + 1)).mono (fun c h => h) (fun c h => ⟨by omega, by omega⟩)

/-- The last cell of the node holds a reduction that the sweep down must not overwrite. -/
def Ival.excl : Ival → Nat
  | .all | .rhs => 0
  | .lhs | .mid => 1

/-- The node has a left sibling. -/
def Ival.hasLeft : Ival → Bool
  | .all | .lhs => false
  | .mid | .rhs => true

/-- Cells read by the up-sweep of the node `[a, a + k)`. -/
abbrev RiseR (o : SOp) (iv : Ival) (src dst a k c : Nat) : Prop :=
  In (src + a) (src + a + k) c ∨ In (dst + a) (dst + a + k) c ∨
    (o = .scan ∧ iv.hasLeft = true ∧ c + 1 = dst + a)

theorem riseLeaf_foot (o : SOp) (iv : Ival) (path : List Bool) (src dst a k : Nat) (hk : 0 < k)
    (ha : iv.hasLeft = true → 0 < a) :
    Foot (riseLeaf (E := E) pr op o iv path (src + a) k (dst + a)) path (In (dst + a) (dst + a + k))
      (RiseR o iv src dst a k) := by
  unfold riseLeaf
  split
  · refine .seq (.atom1 .tmp (.cell (.inl ⟨by omega, by omega⟩))) (.seq ?_ (.atom1 (.cell ⟨by omega, by omega⟩) .tmp))
    exact (foldLoop_foot' path _ _ _ _).mono (fun c h => h) (fun c h => .inl ⟨by omega, by omega⟩)
  · exact .halt
  · exact .halt
  · have := ha rfl
    refine .seq (.atom1 .tmp (.cell (.inr (.inr ⟨rfl, rfl, by omega⟩)))) ?_
    exact (scanLoop_foot pr op path _ _ _).mono (fun c h => h) (fun c h => .inl h)
  · have := ha rfl
    refine .seq (.atom1 .tmp (.cell (.inr (.inr ⟨rfl, rfl, by omega⟩)))) ?_
    exact (scanLoop_foot pr op path _ _ _).mono (fun c h => h) (fun c h => .inl h)
  all_goals
    refine .seq (.atom1 .tmp (.cell (.inl ⟨by omega, by omega⟩))) (.seq (.atom1 (.cell ⟨by omega, by omega⟩) .tmp) ?_)
    exact (scanLoop_foot pr op path _ _ _).mono (fun c h => ⟨by omega, by omega⟩) (fun c h => .inl ⟨by omega, by omega⟩)

theorem riseP_foot {src dst len : Nat} (hal : ∀ i < len, ∀ j < len, src + i = dst + j → i = j)
    (rdy : List Bool → Bool) (n : Nat) (o : SOp) (iv : Ival) (path : List Bool) (a k : Nat)
    (hk : a + k ≤ len) (ha : iv.hasLeft = true → 0 < a) :
    Foot (riseP (E := E) pr op rdy n o iv path (src + a) k (dst + a)) path (In (dst + a) (dst + a + k))
      (RiseR o iv src dst a k) := by
  induction k using Nat.strongRecOn generalizing o iv path a with
  | ind k ih =>
    rw [riseP]
    split
    · exact .halt
    split
    · exact riseLeaf_foot pr op o iv path src dst a k (by omega) ha
    split
    · exact .halt
    have hl : ∀ o, Foot (riseP (E := E) pr op rdy n o iv.l (false :: path) (src + a) (k / 2) (dst + a)) (false :: path)
        (In (dst + a) (dst + a + k / 2)) (RiseR o iv.l src dst a (k / 2)) := fun o =>
      ih (k / 2) (by omega) o iv.l (false :: path) a (by omega) (fun h => ha (by cases iv <;> simp_all [Ival.l, Ival.hasLeft]))
    have hr : ∀ o, Foot (riseP (E := E) pr op rdy n o iv.r (true :: path) (src + a + k / 2) (k - k / 2) (dst + a + k / 2))
        (true :: path) (In (dst + a + k / 2) (dst + a + k / 2 + (k - k / 2)))
        (RiseR o iv.r src dst (a + k / 2) (k - k / 2)) := fun o => by
      have := ih (k - k / 2) (by omega) o iv.r (true :: path) (a + k / 2) (by omega) (fun _ => by omega)
      rwa [← Nat.add_assoc, ← Nat.add_assoc] at this
    have leftOf : ∀ o c, RiseR o iv.l src dst a (k / 2) c → RiseR o iv src dst a k c := by
      rintro o c (h | h | ⟨h1, h2, h3⟩)
      · exact .inl ⟨by omega, by omega⟩
      · exact .inr (.inl ⟨by omega, by omega⟩)
      · exact .inr (.inr ⟨h1, by cases iv <;> simp_all [Ival.l, Ival.hasLeft], h3⟩)
    have rightOf : ∀ o o' c, RiseR o iv.r src dst (a + k / 2) (k - k / 2) c → RiseR o' iv src dst a k c := by
      rintro o o' c (h | h | ⟨h1, h2, h3⟩)
      · exact .inl ⟨by omega, by omega⟩
      · exact .inr (.inl ⟨by omega, by omega⟩)
      · exact .inr (.inl ⟨by omega, by omega⟩)
    have comb : Foot (if iv = Ival.lhs ∨ iv = Ival.mid then
          (Cmd.atom2 (Loc.cell (dst + a + k - 1)) (Loc.cell (dst + a + k / 2 - 1)) (Loc.cell (dst + a + k - 1))
            fun a b => Except.ok (op a b) : Prog V E)
        else Cmd.halt Out.ok) path (In (dst + a) (dst + a + k)) (RiseR o iv src dst a k) := by
      split
      · exact .atom2 (.cell ⟨by omega, by omega⟩) (.cell (.inr (.inl ⟨by omega, by omega⟩)))
          (.cell (.inr (.inl ⟨by omega, by omega⟩)))
      · exact .halt
    have par : Foot (.par (riseP (E := E) pr op rdy n o iv.l (false :: path) (src + a) (k / 2) (dst + a))
        (riseP pr op rdy n .fold iv.r (true :: path) (src + a + k / 2) (k - k / 2) (dst + a + k / 2))) path
        (In (dst + a) (dst + a + k)) (RiseR o iv src dst a k) := by
      refine .par (hl o) (hr .fold) ?_ ?_ ?_ ?_
      · intro c h
        refine ⟨fun h' => by omega, ?_⟩
        rintro (h' | h' | ⟨h', _⟩)
        · have := hal (c - src) (by omega) (c - dst) (by omega) (by omega); omega
        · omega
        · cases h'
      · intro c h
        rintro (h' | h' | ⟨_, _, h'⟩)
        · have := hal (c - src) (by omega) (c - dst) (by omega) (by omega); omega
        · omega
        · omega
      · rintro c (h | h)
        · exact ⟨by omega, by omega⟩
        · exact ⟨by omega, by omega⟩
      · rintro c (h | h)
        · exact leftOf o c h
        · exact rightOf .fold o c h
    have sq : ∀ o' , Foot (.seq (riseP (E := E) pr op rdy n o iv.l (false :: path) (src + a) (k / 2) (dst + a))
        (riseP pr op rdy n o' iv.r (true :: path) (src + a + k / 2) (k - k / 2) (dst + a + k / 2))) path
        (In (dst + a) (dst + a + k)) (RiseR o iv src dst a k) := fun o' =>
      .seq ((hl o).up.mono (fun c h => ⟨by omega, by omega⟩) (leftOf o))
        ((hr o').up.mono (fun c h => ⟨by omega, by omega⟩) (rightOf o' o))
    cases o with
    | fold => exact .seq par comb
    | scan =>
      dsimp only
      split
      · exact sq .scan
      split
      · exact .seq (sq .fold) comb
      · exact .seq par comb

/-- Cells read by the down-sweep. -/
abbrev FallR (iv : Ival) (src dst a k c : Nat) : Prop :=
  In (src + a) (src + a + k - iv.excl) c ∨ In (dst + a - 1) (dst + a + k - iv.excl) c

theorem fallImplP_foot {src dst len : Nat} (hal : ∀ i < len, ∀ j < len, src + i = dst + j → i = j)
    (n : Nat) (iv : Ival) (path : List Bool) (a k : Nat) (hk : a + k ≤ len) (ha : 0 < a) :
    Foot (fallImplP (E := E) pr op n iv path (src + a) k (dst + a)) path
      (In (dst + a) (dst + a + k - iv.excl)) (FallR iv src dst a k) := by
  induction k using Nat.strongRecOn generalizing iv path a with
  | ind k ih =>
    rw [fallImplP]
    split
    · exact .halt
    rename_i hiv
    have hex : iv.excl ≤ 1 := by cases iv <;> simp [Ival.excl]
    split
    · exact .halt
    split
    · refine .seq (.atom1 .tmp (.cell (.inr ⟨by omega, by omega⟩))) ?_
      have hs : (if iv = Ival.rhs then k else k - 1) = k - iv.excl := by
        cases iv <;> simp_all [Ival.excl]
      rw [hs]
      exact (scanLoop_foot pr op path _ _ _).mono (fun c h => ⟨by omega, by omega⟩) (fun c h => .inl ⟨by omega, by omega⟩)
    split
    · exact .halt
    have hl := ih (k / 2) (by omega) iv.l (false :: path) a (by omega) ha
    have hr := ih (k - k / 2) (by omega) iv.r (true :: path) (a + k / 2) (by omega) (by omega)
    rw [← Nat.add_assoc, ← Nat.add_assoc] at hr
    have el : iv.l.excl = 1 := by cases iv <;> rfl
    have er : iv.r.excl = iv.excl := by cases iv <;> first | rfl | simp_all
    have eri : iv.r = iv := by cases iv <;> first | rfl | simp_all
    rw [el] at hl
    refine .seq (.atom2 (.cell ⟨by omega, by omega⟩) (.cell (.inr ⟨by omega, by omega⟩)) (.cell (.inr ⟨by omega, by omega⟩))) ?_
    refine .par hl hr ?_ ?_ ?_ ?_
    · intro c h
      refine ⟨fun h' => by omega, ?_⟩
      rintro (h' | h')
      · have := hal (c - src) (by omega) (c - dst) (by omega) (by omega); omega
      · omega
    · intro c h
      rintro (h' | h')
      · have := hal (c - src) (by omega) (c - dst) (by omega) (by omega); omega
      · omega
    · rintro c (h | h)
      · exact ⟨by omega, by omega⟩
      · exact ⟨by omega, by omega⟩
    · rintro c (h | h)
      · rcases h with h | h
        · exact .inl ⟨by omega, by omega⟩
        · exact .inr ⟨by omega, by omega⟩
      · rcases h with h | h
        · exact .inl ⟨by omega, by omega⟩
        · exact .inr ⟨by omega, by omega⟩

theorem fallP_foot {src dst len : Nat} (hal : ∀ i < len, ∀ j < len, src + i = dst + j → i = j)
    (n : Nat) (iv : Ival) (path : List Bool) (a k se : Nat) (hk : a + k ≤ len) (h1 : a < se) (h2 : se < a + k) :
    Foot (fallP (E := E) pr op n iv path (src + a) k (dst + a) (src + se)) path
      (In (dst + a) (dst + a + k - iv.excl))
      (fun c => In (src + a) (src + a + k - iv.excl) c ∨ In (dst + a) (dst + a + k - iv.excl) c) := by
  induction k using Nat.strongRecOn generalizing iv path a with
  | ind k ih =>
    rw [fallP]
    have hex : iv.excl ≤ 1 := by cases iv <;> simp [Ival.excl]
    have el : iv.l.excl = 1 := by cases iv <;> rfl
    have er : iv.r.excl = iv.excl := by cases iv <;> rfl
    have hr := fallImplP_foot (E := E) pr op hal n iv.r (true :: path) (a + k / 2) (k - k / 2) (by omega) (by omega)
    rw [← Nat.add_assoc, ← Nat.add_assoc] at hr
    simp only [show src + se < src + a + k by omega, show k ≠ 0 by omega, dite_true, dite_false]
    split
    · have hl := ih (k / 2) (by omega) iv.l (false :: path) a (by omega) h1 (by omega)
      rw [el] at hl
      refine .par hl hr ?_ ?_ ?_ ?_
      · intro c h
        refine ⟨fun h' => by omega, ?_⟩
        rintro (h' | h')
        · have := hal (c - src) (by omega) (c - dst) (by omega) (by omega); omega
        · omega
      · intro c h
        rintro (h' | h')
        · have := hal (c - src) (by omega) (c - dst) (by omega) (by omega); omega
        · omega
      · rintro c (h | h)
        · exact ⟨by omega, by omega⟩
        · exact ⟨by omega, by omega⟩
      · rintro c (h | h)
        · rcases h with h | h
          · exact .inl ⟨by omega, by omega⟩
          · exact .inr ⟨by omega, by omega⟩
        · rcases h with h | h
          · exact .inl ⟨by omega, by omega⟩
          · exact .inr ⟨by omega, by omega⟩
    split
    · refine hr.up.mono (fun c h => ⟨by omega, by omega⟩) ?_
      rintro c (h | h)
      · exact .inl ⟨by omega, by omega⟩
      · exact .inr ⟨by omega, by omega⟩
    · have hl := ih (k - k / 2) (by omega) iv.r (true :: path) (a + k / 2) (by omega) (by omega) (by omega)
      rw [← Nat.add_assoc, ← Nat.add_assoc] at hl
      refine hl.up.mono (fun c h => ⟨by omega, by omega⟩) ?_
      rintro c (h | h)
      · exact .inl ⟨by omega, by omega⟩
      · exact .inr ⟨by omega, by omega⟩

end Verif.Algo
