import Verif.Scan.Tree
import Verif.Algo.ScanFoot
import Verif.Par.Foot

/-! What the tasks of `scan` access: no child conflicts with its parent. -/
namespace Verif.Scan
open Verif.Algo (Cmd Out Loc Prog SOp Ival In Own own_child own_disjoint RiseR FallR)
open Verif.Mem (Apart)

section
variable {L V : Type}

theorem acc_rd {w : L} (r : Par.Rd L V Empty) {k : C L V} {l : L} (h : Acc (rd w r k) l) : r.Asks l ∨ l = w ∨ Acc k l := by
  induction r with
  | done x =>
    rcases x with e | u
    · exact nomatch e
    · exact .inr h
  | ask l g ih =>
    rcases h with h | ⟨v, h⟩
    · exact .inl (.inl h)
    · exact (ih v h).imp (fun h => .inr ⟨v, h⟩) id

theorem wr_rd {w : L} (r : Par.Rd L V Empty) {k : C L V} {l : L} (h : Wr (rd w r k) l) : l = w ∨ Wr k l := by
  induction r with
  | done x =>
    rcases x with e | u
    · exact nomatch e
    · exact h
  | ask l g ih => obtain ⟨v, h⟩ := h; exact ih v h

theorem race_rd {w : L} (r : Par.Rd L V Empty) {k : C L V} (h : NoRace k) : NoRace (rd w r k) := by
  induction r with
  | done x =>
    rcases x with e | u
    · exact nomatch e
    · exact h
  | ask l g ih => exact fun v => ih v

theorem acc_lin (p : Cmd L V Empty) {k : C L V} {l : L} (h : Acc (lin p k) l) : Algo.Reads p l ∨ Algo.Writes p l ∨ Acc k l := by
  induction p generalizing k with
  | halt o =>
    cases o with
    | ok => exact .inr (.inr h)
    | exn e => exact nomatch e
    | ub => exact h.elim
  | atom w n rs f =>
    rcases acc_rd _ h with h | h | h
    · exact .inl (Par.rdOf_asks _ _ _ _ h)
    · exact .inr (.inl h)
    · exact .inr (.inr h)
  | seq p q ih1 ih2 =>
    rcases ih1 h with h | h | h
    · exact .inl (.inl h)
    · exact .inr (.inl (.inl h))
    · rcases ih2 h with h | h | h
      · exact .inl (.inr h)
      · exact .inr (.inl (.inr h))
      · exact .inr (.inr h)
  | par p q => exact h.elim

theorem wr_lin (p : Cmd L V Empty) {k : C L V} {l : L} (h : Wr (lin p k) l) : Algo.Writes p l ∨ Wr k l := by
  induction p generalizing k with
  | halt o =>
    cases o with
    | ok => exact .inr h
    | exn e => exact nomatch e
    | ub => exact h.elim
  | atom w n rs f => exact wr_rd _ h
  | seq p q ih1 ih2 =>
    rcases ih1 h with h | h
    · exact .inl (.inl h)
    · rcases ih2 h with h | h
      · exact .inl (.inr h)
      · exact .inr h
  | par p q => exact h.elim

theorem race_lin (p : Cmd L V Empty) {k : C L V} (h : NoRace k) : NoRace (lin p k) := by
  induction p generalizing k with
  | halt o =>
    cases o with
    | ok => exact h
    | exn e => exact nomatch e
    | ub => trivial
  | atom w n rs f => exact race_rd _ h
  | seq p q ih1 ih2 => exact ih1 (ih2 h)
  | par p q => trivial

/-- What is written is accessed. -/
theorem wr_acc {c : C L V} {l : L} (h : Wr c l) : Acc c l := by
  induction c with
  | ret => exact h
  | ub => exact h
  | get l' k ih => obtain ⟨v, h⟩ := h; exact .inr ⟨v, ih v h⟩
  | set l' v k ih => exact h.imp id ih
  | call c k ih1 ih2 => exact h.imp ih1 (fun ⟨r, h⟩ => ⟨r, ih2 r h⟩)
  | fork c k ih1 ih2 => exact h.imp ih1 ih2
  | out c k ih1 ih2 => exact h.imp ih1 (fun ⟨r, h⟩ => ⟨r, ih2 r h⟩)
  | join k ih => obtain ⟨v, h⟩ := h; exact ⟨v, ih v h⟩

end

variable {V : Type}

/-- The cells written satisfy `W`, the cells accessed `R`, everything else touched is a local of the sub-tree. -/
structure FootC (c : C Loc V) (path : List Bool) (W R : Nat → Prop) : Prop where
  wr : ∀ l, Wr c l → (∃ a, l = .cell a ∧ W a) ∨ Own path l
  acc : ∀ l, Acc c l → (∃ a, l = .cell a ∧ R a) ∨ Own path l
  race : NoRace c

theorem FootC.mono {c : C Loc V} {path W R W' R'} (h : FootC c path W R) (hw : ∀ a, W a → W' a) (hr : ∀ a, R a → R' a) : FootC c path W' R' :=
  ⟨fun l hl => (h.wr l hl).imp (fun ⟨c, a, b⟩ => ⟨c, a, hw c b⟩) id, fun l hl => (h.acc l hl).imp (fun ⟨c, a, b⟩ => ⟨c, a, hr c b⟩) id, h.race⟩

theorem FootC.up {c : C Loc V} {b path W R} (h : FootC c (b :: path) W R) : FootC c path W R :=
  ⟨fun l hl => (h.wr l hl).imp id own_child, fun l hl => (h.acc l hl).imp id own_child, h.race⟩

theorem FootC.ret {r path} {W R} : FootC (.ret r : C Loc V) path W R := ⟨fun _ h => h.elim, fun _ h => h.elim, trivial⟩

theorem FootC.ub {path} {W R} : FootC (.ub : C Loc V) path W R := ⟨fun _ h => h.elim, fun _ h => h.elim, trivial⟩

theorem FootC.lin {p : Prog V Empty} {k : C Loc V} {path} {W R R' : Nat → Prop} (hp : Algo.Foot p path W R') (hk : FootC k path W R) (h1 : ∀ a, W a → R a) (h2 : ∀ a, R' a → R a) :
    FootC (lin p k) path W R := by
  refine ⟨fun l hl => ?_, fun l hl => ?_, race_lin _ hk.race⟩
  · exact (wr_lin _ hl).elim (hp.writes l) (hk.wr l)
  · rcases acc_lin _ hl with h | h | h
    · exact (hp.reads l h).imp (fun ⟨c, a, b⟩ => ⟨c, a, h2 c b⟩) id
    · exact (hp.writes l h).imp (fun ⟨c, a, b⟩ => ⟨c, a, h1 c b⟩) id
    · exact hk.acc l h

theorem FootC.call {c : C Loc V} {k : Nat → C Loc V} {path W R} (hc : FootC c path W R) (hk : ∀ r, FootC (k r) path W R) : FootC (.call c k) path W R :=
  ⟨fun l hl => hl.elim (hc.wr l) (fun ⟨r, h⟩ => (hk r).wr l h), fun l hl => hl.elim (hc.acc l) (fun ⟨r, h⟩ => (hk r).acc l h), hc.race, fun r => (hk r).race⟩

theorem FootC.join {k : List Nat → C Loc V} {path W R} (hk : ∀ vs, FootC (k vs) path W R) : FootC (.join k) path W R :=
  ⟨fun l ⟨r, h⟩ => (hk r).wr l h, fun l ⟨r, h⟩ => (hk r).acc l h, fun r => (hk r).race⟩

/-- The halves do not conflict. -/
theorem apart {p q : C Loc V} {path W1 R1 W2 R2} (hp : FootC p (false :: path) W1 R1) (hq : FootC q (true :: path) W2 R2)
    (h1 : ∀ c, W1 c → ¬ R2 c) (h2 : ∀ c, W2 c → ¬ R1 c) (k : List Nat → C Loc V) :
    Apart (Acc p) (Wr p) (AccJ (.call q fun _ => .join k)) (WrJ (.call q fun _ => .join k)) := by
  have key : ∀ {x y : (Loc → Prop)} {W R : Nat → Prop} {b c : Bool}, b ≠ c → (∀ l, x l → (∃ a, l = .cell a ∧ W a) ∨ Own (b :: path) l) →
      (∀ l, y l → (∃ a, l = .cell a ∧ R a) ∨ Own (c :: path) l) → (∀ c, W c → ¬ R c) → ∀ l, x l → ¬ y l := by
    intro x y W R b c hbc hx hy hwr l h1 h2
    rcases hx l h1 with ⟨a, rfl, ha⟩ | ho
    · rcases hy _ h2 with ⟨a', h, ha'⟩ | ⟨_, _, h⟩
      · cases h; exact hwr a ha ha'
      · cases h
    · rcases hy _ h2 with ⟨a', rfl, ha'⟩ | h
      · obtain ⟨_, _, h⟩ := ho; cases h
      · cases b <;> cases c <;> first | exact hbc rfl | exact own_disjoint ho h | exact own_disjoint h ho
  intro l
  refine ⟨fun a b => ?_, fun a b => ?_⟩
  · rcases b with b | ⟨_, b⟩
    · exact key (by decide) hp.wr hq.acc h1 l a b
    · exact b
  · rcases a with a | ⟨_, a⟩
    · exact key (by decide) hq.wr hp.acc h2 l a b
    · exact a

theorem FootC.fork {p q : C Loc V} {k : List Nat → C Loc V} {path W1 R1 W2 R2} {W R : Nat → Prop} (hp : FootC p (false :: path) W1 R1) (hq : FootC q (true :: path) W2 R2)
    (hk : ∀ vs, FootC (k vs) path W R) (h1 : ∀ c, W1 c → ¬ R2 c) (h2 : ∀ c, W2 c → ¬ R1 c)
    (hw : ∀ c, W1 c ∨ W2 c → W c) (hr : ∀ c, R1 c ∨ R2 c → R c) : FootC (.fork p (.call q fun _ => .join k)) path W R := by
  have up1 := hp.up.mono (W' := W) (R' := R) (fun c h => hw c (.inl h)) (fun c h => hr c (.inl h))
  have up2 := FootC.call (hq.up.mono (W' := W) (R' := R) (fun c h => hw c (.inr h)) (fun c h => hr c (.inr h))) (fun _ => .join hk)
  exact ⟨fun l hl => hl.elim (up1.wr l) (up2.wr l), fun l hl => hl.elim (up1.acc l) (up2.acc l), hp.race, up2.race, apart hp hq h1 h2 k⟩

theorem FootC.out {p q : C Loc V} {k : Option Nat → C Loc V} {k' : List Nat → C Loc V} {path W1 R1 W2 R2} {W R : Nat → Prop} (hp : FootC p (false :: path) W1 R1) (hq : FootC q (true :: path) W2 R2)
    (hn : k none = .call q fun _ => .join k') (hk : ∀ vs, FootC (k' vs) path W R) (hs : ∀ r, FootC (k (some r)) path W R) (h1 : ∀ c, W1 c → ¬ R2 c) (h2 : ∀ c, W2 c → ¬ R1 c)
    (hw : ∀ c, W1 c ∨ W2 c → W c) (hr : ∀ c, R1 c ∨ R2 c → R c) : FootC (.out p k) path W R := by
  have up1 := hp.up.mono (W' := W) (R' := R) (fun c h => hw c (.inl h)) (fun c h => hr c (.inl h))
  have up2 : ∀ o, FootC (k o) path W R := fun o => by
    cases o with
    | none => rw [hn]; exact .call (hq.up.mono (fun c h => hw c (.inr h)) (fun c h => hr c (.inr h))) (fun _ => .join hk)
    | some r => exact hs r
  exact ⟨fun l hl => hl.elim (up1.wr l) (fun ⟨o, h⟩ => (up2 o).wr l h), fun l hl => hl.elim (up1.acc l) (fun ⟨o, h⟩ => (up2 o).acc l h), hp.race, fun o => (up2 o).race,
    by rw [hn]; exact apart hp hq h1 h2 k'⟩

variable (pr : V → V) (op : V → V → V)

theorem rise_foot {src dst len : Nat} (hal : ∀ i < len, ∀ j < len, src + i = dst + j → i = j)
    (n : Nat) (o : SOp) (iv : Ival) (path : List Bool) (a k : Nat) (hk : a + k ≤ len) (ha : iv.hasLeft = true → 0 < a) :
    FootC (rise pr op n o iv path (src + a) k (dst + a)) path (In (dst + a) (dst + a + k)) (RiseR o iv src dst a k) := by
  induction k using Nat.strongRecOn generalizing o iv path a with
  | ind k ih =>
    rw [rise]
    split
    · exact .ub
    split
    · exact .lin (Algo.riseLeaf_foot pr op o iv path src dst a k (by omega) ha) .ret (fun c h => .inr (.inl h)) (fun c h => h)
    split
    · exact .ub
    have hl : ∀ o, FootC (rise pr op n o iv.l (false :: path) (src + a) (k / 2) (dst + a)) (false :: path)
        (In (dst + a) (dst + a + k / 2)) (RiseR o iv.l src dst a (k / 2)) := fun o =>
      ih (k / 2) (by omega) o iv.l (false :: path) a (by omega) (fun h => ha (by cases iv <;> simp_all [Ival.l, Ival.hasLeft]))
    have hr : ∀ o, FootC (rise pr op n o iv.r (true :: path) (src + a + k / 2) (k - k / 2) (dst + a + k / 2))
        (true :: path) (In (dst + a + k / 2) (dst + a + k / 2 + (k - k / 2)))
        (RiseR o iv.r src dst (a + k / 2) (k - k / 2)) := fun o => by
      have := ih (k - k / 2) (by omega) o iv.r (true :: path) (a + k / 2) (by omega) (fun _ => by omega)
      rwa [← Nat.add_assoc, ← Nat.add_assoc] at this
    have leftOf : ∀ o c, RiseR o iv.l src dst a (k / 2) c → RiseR o iv src dst a k c := by
      rintro o c (h | h | ⟨h1, h2, h3⟩)
      · exact .inl ⟨by omega, by omega⟩
      · exact .inr (.inl ⟨by omega, by omega⟩)
      · exact .inr (.inr ⟨h1, by cases iv <;> simp_all [Ival.l, Ival.hasLeft], h3⟩)
    have rightOf : ∀ o o' c, RiseR o iv.r src dst (a + k / 2) (k - k / 2) c → RiseR o' iv src dst a k c := by
      rintro o o' c (h | h | ⟨h1, h2, h3⟩)
      · exact .inl ⟨by omega, by omega⟩
      · exact .inr (.inl ⟨by omega, by omega⟩)
      · exact .inr (.inl ⟨by omega, by omega⟩)
    have comb : ∀ r, FootC (combine op iv k (dst + a) r) path (In (dst + a) (dst + a + k)) (RiseR o iv src dst a k) := by
      intro r
      refine .lin (R' := RiseR o iv src dst a k) ?_ .ret (fun c h => .inr (.inl h)) (fun c h => h)
      split
      · exact .atom2 (.cell ⟨by omega, by omega⟩) (.cell (.inr (.inl ⟨by omega, by omega⟩)))
          (.cell (.inr (.inl ⟨by omega, by omega⟩)))
      · exact .halt
    have d1 : ∀ c, In (dst + a) (dst + a + k / 2) c → ¬ RiseR .fold iv.r src dst (a + k / 2) (k - k / 2) c := by
      intro c h
      rintro (h' | h' | ⟨h', _⟩)
      · have := hal (c - src) (by omega) (c - dst) (by omega) (by omega); omega
      · omega
      · cases h'
    have d2 : ∀ o c, In (dst + a + k / 2) (dst + a + k / 2 + (k - k / 2)) c → ¬ RiseR o iv.l src dst a (k / 2) c := by
      intro o c h
      rintro (h' | h' | ⟨_, _, h'⟩)
      · have := hal (c - src) (by omega) (c - dst) (by omega) (by omega); omega
      · omega
      · omega
    have dw : ∀ c, In (dst + a) (dst + a + k / 2) c ∨ In (dst + a + k / 2) (dst + a + k / 2 + (k - k / 2)) c → In (dst + a) (dst + a + k) c := by
      rintro c (h | h)
      · exact ⟨by omega, by omega⟩
      · exact ⟨by omega, by omega⟩
    have dr : ∀ o c, RiseR o iv.l src dst a (k / 2) c ∨ RiseR .fold iv.r src dst (a + k / 2) (k - k / 2) c → RiseR o iv src dst a k c := by
      rintro o c (h | h)
      · exact leftOf o c h
      · exact rightOf .fold o c h
    have hru : ∀ o o', FootC (rise pr op n o iv.r (true :: path) (src + a + k / 2) (k - k / 2) (dst + a + k / 2)) path (In (dst + a) (dst + a + k)) (RiseR o' iv src dst a k) :=
      fun o o' => (hr o).up.mono (fun c h => dw c (.inr h)) (rightOf o o')
    cases o with
    | fold => exact .fork (hl .fold) (hr .fold) (fun _ => comb 0) d1 (d2 .fold) dw (dr .fold)
    | scan =>
      refine .out (hl .scan) (hr .fold) (k' := only (combine op iv k (dst + a))) rfl ?_ ?_ d1 (d2 .scan) dw (dr .scan)
      · intro vs
        unfold only
        split
        · exact comb _
        · exact .ub
      · intro r
        dsimp only
        split
        · exact .call (hru .scan .scan) (fun _ => .ret)
        · exact .call (hru .fold .scan) (fun _ => .join fun _ => comb r)

theorem fallImpl_foot {src dst len : Nat} (hal : ∀ i < len, ∀ j < len, src + i = dst + j → i = j)
    (n : Nat) (iv : Ival) (path : List Bool) (a k : Nat) (hk : a + k ≤ len) (ha : 0 < a) :
    FootC (fallImpl pr op n iv path (src + a) k (dst + a)) path (In (dst + a) (dst + a + k - iv.excl)) (FallR iv src dst a k) := by
  induction k using Nat.strongRecOn generalizing iv path a with
  | ind k ih =>
    rw [fallImpl]
    split
    · exact .ub
    rename_i hiv
    have hex : iv.excl ≤ 1 := by cases iv <;> simp [Ival.excl]
    have dw : ∀ c, In (dst + a) (dst + a + k - iv.excl) c → FallR iv src dst a k c := fun c h => .inr ⟨by omega, by omega⟩
    split
    · exact .ub
    split
    · refine .lin (R' := FallR iv src dst a k) (.seq (.atom1 .tmp (.cell (.inr ⟨by omega, by omega⟩))) ?_) .ret dw (fun c h => h)
      have hs : (if iv = Ival.rhs then k else k - 1) = k - iv.excl := by
        cases iv <;> simp_all [Ival.excl]
      rw [hs]
      exact (Algo.scanLoop_foot pr op path _ _ _).mono (fun c h => ⟨by omega, by omega⟩) (fun c h => .inl ⟨by omega, by omega⟩)
    split
    · exact .ub
    have hl := ih (k / 2) (by omega) iv.l (false :: path) a (by omega) ha
    have hr := ih (k - k / 2) (by omega) iv.r (true :: path) (a + k / 2) (by omega) (by omega)
    rw [← Nat.add_assoc, ← Nat.add_assoc] at hr
    have el : iv.l.excl = 1 := by cases iv <;> rfl
    have er : iv.r.excl = iv.excl := by cases iv <;> first | rfl | simp_all
    have eri : iv.r = iv := by cases iv <;> first | rfl | simp_all
    rw [el] at hl
    refine .lin (R' := FallR iv src dst a k) (.atom2 (.cell ⟨by omega, by omega⟩) (.cell (.inr ⟨by omega, by omega⟩)) (.cell (.inr ⟨by omega, by omega⟩))) ?_ dw (fun c h => h)
    refine .fork hl hr (fun _ => .ret) ?_ ?_ ?_ ?_
    · intro c h
      rintro (h' | h')
      · have := hal (c - src) (by omega) (c - dst) (by omega) (by omega); omega
      · omega
    · intro c h
      rintro (h' | h')
      · have := hal (c - src) (by omega) (c - dst) (by omega) (by omega); omega
      · omega
    · rintro c (h | h)
      · exact ⟨by omega, by omega⟩
      · exact ⟨by omega, by omega⟩
    · rintro c (h | h)
      · rcases h with h | h
        · exact .inl ⟨by omega, by omega⟩
        · exact .inr ⟨by omega, by omega⟩
      · rcases h with h | h
        · exact .inl ⟨by omega, by omega⟩
        · exact .inr ⟨by omega, by omega⟩

theorem fall_foot {src dst len : Nat} (hal : ∀ i < len, ∀ j < len, src + i = dst + j → i = j)
    (n : Nat) (iv : Ival) (path : List Bool) (a k se : Nat) (hk : a + k ≤ len) (h1 : a < se) :
    FootC (fall pr op n iv path (src + a) k (dst + a) (src + se)) path (In (dst + a) (dst + a + k - iv.excl))
      (fun c => In (src + a) (src + a + k - iv.excl) c ∨ In (dst + a) (dst + a + k - iv.excl) c) := by
  induction k using Nat.strongRecOn generalizing iv path a with
  | ind k ih =>
    rw [fall]
    by_cases h2 : src + se < src + a + k
    case neg => rw [dif_neg h2]; exact .ub
    rw [dif_pos h2]
    split
    · exact .ub
    have hex : iv.excl ≤ 1 := by cases iv <;> simp [Ival.excl]
    have el : iv.l.excl = 1 := by cases iv <;> rfl
    have er : iv.r.excl = iv.excl := by cases iv <;> rfl
    have hr := fallImpl_foot pr op hal n iv.r (true :: path) (a + k / 2) (k - k / 2) (by omega) (by omega)
    rw [← Nat.add_assoc, ← Nat.add_assoc] at hr
    dsimp only
    split
    · have hl := ih (k / 2) (by omega) iv.l (false :: path) a (by omega) h1
      rw [el] at hl
      refine .fork hl hr (fun _ => .ret) ?_ ?_ ?_ ?_
      · intro c h
        rintro (h' | h')
        · have := hal (c - src) (by omega) (c - dst) (by omega) (by omega); omega
        · omega
      · intro c h
        rintro (h' | h')
        · have := hal (c - src) (by omega) (c - dst) (by omega) (by omega); omega
        · omega
      · rintro c (h | h)
        · exact ⟨by omega, by omega⟩
        · exact ⟨by omega, by omega⟩
      · rintro c (h | h)
        · rcases h with h | h
          · exact .inl ⟨by omega, by omega⟩
          · exact .inr ⟨by omega, by omega⟩
        · rcases h with h | h
          · exact .inl ⟨by omega, by omega⟩
          · exact .inr ⟨by omega, by omega⟩
    split
    · refine .call (hr.up.mono (fun c h => ⟨by omega, by omega⟩) ?_) (fun _ => .ret)
      rintro c (h | h)
      · exact .inl ⟨by omega, by omega⟩
      · exact .inr ⟨by omega, by omega⟩
    · have hl := ih (k - k / 2) (by omega) iv.r (true :: path) (a + k / 2) (by omega) (by omega)
      rw [← Nat.add_assoc, ← Nat.add_assoc] at hl
      refine .call (hl.up.mono (fun c h => ⟨by omega, by omega⟩) ?_) (fun _ => .ret)
      rintro c (h | h)
      · exact .inl ⟨by omega, by omega⟩
      · exact .inr ⟨by omega, by omega⟩

theorem scan_foot {src dst len : Nat} (hal : ∀ i < len, ∀ j < len, src + i = dst + j → i = j) (n : Nat) (path : List Bool) :
    FootC (scan pr op n path src dst len) path (In dst (dst + len)) (fun c => In src (src + len) c ∨ In dst (dst + len) c) := by
  unfold scan
  split
  · exact .ret
  refine .call ?_ (fun r => ?_)
  · have := rise_foot pr op hal n .scan .all path 0 len (by omega) (fun h => by cases h)
    simp only [Nat.add_zero] at this
    exact this.mono (fun c h => h) (fun c h => by rcases h with h | h | ⟨_, h, _⟩ <;> first | exact .inl (by simpa using h) | exact .inr (by simpa using h) | cases h)
  · split
    · split
      · rename_i h1 h2
        have := fall_foot pr op hal n .all path 0 len (r - src) (by omega) (by omega)
        simp only [Nat.add_zero, Ival.excl, Nat.sub_zero, show src + (r - src) = r by omega] at this
        exact .call this (fun _ => .ret)
      · exact .ub
    · exact .ret

end Verif.Scan
