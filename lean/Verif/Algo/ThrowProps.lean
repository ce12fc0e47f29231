import Verif.Algo.ThrowLemmas
import Verif.Algo.ScanProps

/-! C48: property theorems about algorithms whose functions throw. -/
namespace Verif.Algo.Throw
variable {V E : Type}

/-- A call begins with nothing thrown. -/
def start (m : Mem Loc V) : St Loc V E := { m, pd := none, log := [] }

/-- What a user relies on: the algorithm ends normally exactly if nothing was thrown, otherwise with one of the exceptions that were
thrown, and never fails an assertion or has other undefined behaviour. -/
def Propagates (p : Prog V E) : Prop :=
  ∀ m o s, Steps p (start m) (.halt o) s →
    o ≠ .ub ∧ (o = .ok ↔ s.log = []) ∧ ∀ e, o = .exn e → ∃ c, (e, c) ∈ s.log

theorem steps_pres {p : Prog V E} {s p' s'} (h : Steps p s p' s') {b : Mode} (g : G s.log b p) (a : Agrees s.log b s.pd)
    (hl : b = .calm → s.log = []) : ∃ b', G s'.log b' p' ∧ (b' = .calm → s'.log = []) := by
  induction h generalizing b with
  | refl => exact ⟨b, g, hl⟩
  | head st _ ih =>
    obtain ⟨b', g', a', h'⟩ := step_pres st g a
    exact ih g' a' fun e => by rw [(h' e).2, hl (h' e).1]

theorem propagates_of_calm {p : Prog V E} (g : G [] .calm p) : Propagates p := by
  intro m o s h
  obtain ⟨b, g', hl⟩ := steps_pres h (b := .calm) g trivial fun _ => rfl
  cases g' with
  | ok => exact ⟨nofun, ⟨fun _ => hl rfl, fun _ => rfl⟩, nofun⟩
  | exn he =>
    refine ⟨nofun, ⟨nofun, fun e => ?_⟩, fun e hh => ?_⟩
    · rw [e] at he; cases he
    · cases hh; exact ⟨_, he⟩

/-! ### The algorithms start calm -/

/-- Exceptions of the operator are rethrown at once: it is synchronous, or the modifiers do what they promise. -/
def Fns.Rethrows (F : Fns V E) : Prop := F.async = false ∨ F.eag = true

theorem Fns.bop_flag {F : Fns V E} (h : F.Rethrows) {a b e c} (hb : F.bop a b = .error (e, c)) : c = false := by
  unfold Fns.bop at hb
  split at hb
  · cases hb
  · cases hb; rcases h with h | h <;> simp [h]

theorem thrown_flag {α : Type} {x : Except E α} {e c} (h : thrown x = .error (e, c)) : c = false := by
  cases x <;> cases h; rfl

theorem Fns.acc_flag {F : Fns V E} (h : F.Rethrows) {a b e c} (hb : F.acc a b = .error (e, c)) : c = false := by
  unfold Fns.acc at hb
  split at hb
  · exact F.bop_flag h hb
  · rename_i hh; cases hb; exact thrown_flag hh

theorem G.atom1 {l : List (E × Bool)} {w a : Loc} {f : V → Except (E × Bool) V} (h : ∀ v e c, f v = .error (e, c) → c = false) :
    G l .calm (atom1 w a f) := .atom fun _ _ _ hf => h _ _ _ hf

theorem G.atom2 {l : List (E × Bool)} {w a b : Loc} {f : V → V → Except (E × Bool) V}
    (h : ∀ v u e c, f v u = .error (e, c) → c = false) : G l .calm (atom2 w a b f) := .atom fun _ _ _ hf => h _ _ _ _ hf

theorem G.copy {l : List (E × Bool)} {w a : Loc} : G (V := V) l .calm (Throw.atom1 w a .ok) := .atom1 nofun

theorem G.proj {l : List (E × Bool)} {w a : Loc} (F : Fns V E) : G l .calm (Throw.atom1 w a F.proj) := .atom1 fun _ _ _ h => thrown_flag h

theorem G.acc {l : List (E × Bool)} {w a b : Loc} {F : Fns V E} (h : F.Rethrows) : G l .calm (Throw.atom2 w a b F.acc) :=
  .atom2 fun _ _ _ _ hf => F.acc_flag h hf

theorem G.bop {l : List (E × Bool)} {w a b : Loc} {F : Fns V E} (h : F.Rethrows) : G l .calm (Throw.atom2 w a b F.bop) :=
  .atom2 fun _ _ _ _ hf => F.bop_flag h hf

theorem G.task {l : List (E × Bool)} {p : Prog V E} (h : G l .calm p) : G l .calm (.frame none p) := .frame nofun h

theorem G.fork {l : List (E × Bool)} {p q : Prog V E} (h1 : G l .calm p) (h2 : G l .calm q) :
    G l .calm (.par (.frame none p) (.frame none q)) := .parC trivial trivial h1.task h2.task

theorem foldLoop_calm {F : Fns V E} (h : F.Rethrows) (acc : Loc) (k : Nat) : ∀ head l, G l .calm (foldLoop F acc head k) := by
  induction k with
  | zero => exact fun _ _ => .ok
  | succ k ih => exact fun head l => .seq (.acc h) (ih _ _)

theorem scanLoop_calm {F : Fns V E} (h : F.Rethrows) (acc : Loc) (k : Nat) : ∀ beg out l, G l .calm (scanLoop F acc beg out k) := by
  induction k with
  | zero => exact fun _ _ _ => .ok
  | succ k ih => exact fun beg out l => .seq (.acc h) (.seq .copy (ih _ _ _))

theorem foldN_calm {F : Fns V E} (h : F.Rethrows) {n : Nat} (hn : 1 < n) (len : Nat) :
    0 < len → ∀ ret path head l, G l .calm (foldN F n ret path head len) := by
  induction len using Nat.strongRecOn with
  | ind len ih =>
    intro hl ret path head l
    unfold foldN
    rw [if_neg (by omega), if_neg (by omega)]
    split
    · exact .seq (.proj F) (.seq (foldLoop_calm h ..) .copy)
    · rw [if_neg (by omega)]
      exact .seq (.fork (ih _ (by omega) (by omega) ..) (ih _ (by omega) (by omega) ..)) (.atom2 fun _ _ _ _ hf => thrown_flag hf)

theorem foldOne_calm {F : Fns V E} (len : Nat) : 0 < len → ∀ ret path head l, G l .calm (foldOne F ret path head len) := by
  induction len using Nat.strongRecOn with
  | ind len ih =>
    intro hl ret path head l
    unfold foldOne
    rw [if_neg (by omega)]
    split
    · exact .proj F
    · rw [if_neg (by omega)]
      exact .seq (.fork (ih _ (by omega) (by omega) ..) (ih _ (by omega) (by omega) ..)) (.atom2 fun _ _ _ _ hf => thrown_flag hf)

theorem riseLeaf_calm {F : Fns V E} (h : F.Rethrows) (o : SOp) (iv : Ival) (ho : o = .fold → iv = .mid ∨ iv = .rhs)
    (path : List Bool) (beg size out : Nat) (l) : G l .calm (riseLeaf F o iv path beg size out) := by
  cases o with
  | fold =>
    rcases ho rfl with rfl | rfl
    · exact .seq (.proj F) (.seq (foldLoop_calm h ..) .copy)
    · exact .ok
  | scan =>
    cases iv
    · exact .seq (.proj F) (.seq .copy (scanLoop_calm h ..))
    · exact .seq (.proj F) (.seq .copy (scanLoop_calm h ..))
    · exact .seq .copy (scanLoop_calm h ..)
    · exact .seq .copy (scanLoop_calm h ..)

/-- An uninitialised `left_out` never compares equal to an iterator strictly inside the range from `lo` to `hi` (for example because
iterators are value-initialised), or is not read because the sync fork rethrows. -/
def Harmless (F : Fns V E) (gb : List Bool → Option Nat) (lo hi : Nat) : Prop :=
  F.eag = true ∨ ∀ path, ∃ v, gb path = some v ∧ (v ≤ lo ∨ hi ≤ v)

theorem rise_calm {F : Fns V E} (h : F.Rethrows) (rdy : List Bool → Bool) {gb : List Bool → Option Nat} {lo hi : Nat}
    (hg : Harmless F gb lo hi) {n : Nat} (hn : 0 < n) (size : Nat) : 0 < size → ∀ (o : SOp) (iv : Ival), (o = .fold → iv = .mid ∨ iv = .rhs) →
      ∀ path beg out l, lo ≤ beg → beg + size ≤ hi → G l .calm (rise F rdy gb n o iv path beg size out) := by
  induction size using Nat.strongRecOn with
  | ind size ih =>
    intro hs o iv ho path beg out l hlo hhi
    unfold rise
    rw [if_neg (by omega)]
    split
    · exact riseLeaf_calm h o iv ho ..
    rw [if_neg (by omega)]
    have hr : SOp.fold = SOp.fold → iv.r = .mid ∨ iv.r = .rhs := fun _ => by cases iv <;> simp [Ival.r]
    have hL : ∀ l, G l .calm (rise F rdy gb n o iv.l (false :: path) beg (size / 2) out) := fun l =>
      ih (size / 2) (by omega) (by omega) o iv.l (fun e => by rcases ho e with rfl | rfl <;> simp [Ival.l]) _ _ _ _ (by omega) (by omega)
    have hF : ∀ l, G l .calm (rise F rdy gb n .fold iv.r (true :: path) (beg + size / 2) (size - size / 2) (out + size / 2)) := fun l =>
      ih (size - size / 2) (by omega) (by omega) .fold iv.r hr _ _ _ _ (by omega) (by omega)
    have hS : ∀ l, G l .calm (rise F rdy gb n .scan iv.r (true :: path) (beg + size / 2) (size - size / 2) (out + size / 2)) := fun l =>
      ih (size - size / 2) (by omega) (by omega) .scan iv.r (by simp) _ _ _ _ (by omega) (by omega)
    have hC : ∀ l, G l .calm (if iv = .lhs ∨ iv = .mid then
        Throw.atom2 (.cell (out + size - 1)) (.cell (out + size / 2 - 1)) (.cell (out + size - 1)) F.bop else .halt .ok : Prog V E) := by
      intro l; split
      · exact .bop h
      · exact .ok
    have hR : ∀ l, G l .calm (.seq (.par (.halt .ok) (.frame none
        (rise F rdy gb n .fold iv.r (true :: path) (beg + size / 2) (size - size / 2) (out + size / 2))))
        (if iv = .lhs ∨ iv = .mid then
        Throw.atom2 (.cell (out + size - 1)) (.cell (out + size / 2 - 1)) (.cell (out + size - 1)) F.bop else .halt .ok : Prog V E)) :=
      fun l => .seq (.parC trivial trivial .ok (hF l).task) (hC l)
    have hP : ∀ l, G l .pending (.seq (.par (.halt .ok) (.frame none
        (rise F rdy gb n .fold iv.r (true :: path) (beg + size / 2) (size - size / 2) (out + size / 2))))
        (if iv = .lhs ∨ iv = .mid then
        Throw.atom2 (.cell (out + size - 1)) (.cell (out + size / 2 - 1)) (.cell (out + size - 1)) F.bop else .halt .ok : Prog V E)) :=
      fun l => .seq (.parP (b1 := .calm) (b2 := .calm) trivial trivial nofun nofun .ok (hF l).task) (hC l)
    cases o with
    | fold => exact .seq (.fork (hL _) (hF _)) (hC _)
    | scan =>
      dsimp only
      split
      · have hq : ∀ c : Prop, [Decidable c] → G l .calm (if c then .frame none (rise F rdy gb n .scan iv.r (true :: path)
            (beg + size / 2) (size - size / 2) (out + size / 2)) else (.seq (.par (.halt .ok) (.frame none
            (rise F rdy gb n .fold iv.r (true :: path) (beg + size / 2) (size - size / 2) (out + size / 2))))
            (if iv = .lhs ∨ iv = .mid then
            Throw.atom2 (.cell (out + size - 1)) (.cell (out + size / 2 - 1)) (.cell (out + size - 1)) F.bop else .halt .ok : Prog V E))) := by
          intro c _; split
          · exact (hS l).task
          · exact hR l
        cases he : F.eag with
        | true => exact .sforkE trivial nofun (hL l).task (hq _)
        | false =>
          refine .sfork trivial nofun (hL l).task (hq _) fun l' => ?_
          rcases hg with hg | hg
          · rw [he] at hg; cases hg
          · obtain ⟨v, hg, hv⟩ := hg path
            rw [hg]; dsimp only; rw [if_neg (by omega)]; exact hP l'
      · exact .seq (.fork (hL _) (hF _)) (hC _)

theorem fallImpl_calm {F : Fns V E} (h : F.Rethrows) {n : Nat} (hn : 0 < n) (size : Nat) : 0 < size → ∀ (iv : Ival),
    iv = .mid ∨ iv = .rhs → ∀ path beg out l, G l .calm (fallImpl F n iv path beg size out) := by
  induction size using Nat.strongRecOn with
  | ind size ih =>
    intro hs iv ho path beg out l
    unfold fallImpl
    rw [if_neg (by rcases ho with rfl | rfl <;> simp), if_neg (by omega)]
    split
    · exact .seq .copy (scanLoop_calm h ..)
    rw [if_neg (by omega)]
    exact .seq (.bop h) (.fork (ih _ (by omega) (by omega) _ (by rcases ho with rfl | rfl <;> simp [Ival.l]) ..)
      (ih _ (by omega) (by omega) _ (by rcases ho with rfl | rfl <;> simp [Ival.r]) ..))

theorem fall_calm {F : Fns V E} (h : F.Rethrows) {n : Nat} (hn : 0 < n) (size : Nat) : ∀ (iv : Ival) (path : List Bool)
    (beg out se : Nat) (l), beg < se → se < beg + size → G l .calm (fall F n iv path beg size out se) := by
  induction size using Nat.strongRecOn with
  | ind size ih =>
    intro iv path beg out se l h1 h2
    unfold fall
    have hr : iv.r = .mid ∨ iv.r = .rhs := by cases iv <;> simp [Ival.r]
    rw [dif_pos h2, dif_neg (by omega)]
    dsimp only
    have hI : ∀ l, G l .calm (fallImpl F n iv.r (true :: path) (beg + size / 2) (size - size / 2) (out + size / 2)) := fun l =>
      fallImpl_calm h hn _ (by omega) _ hr ..
    split
    · exact .fork (ih (size / 2) (by omega) _ _ _ _ _ _ h1 (by omega)) (hI l)
    split
    · exact (hI l).task
    · exact (ih (size - size / 2) (by omega) _ _ _ _ _ _ (by omega) (by omega)).task

theorem riseEnd_bounds (rdy : List Bool → Bool) {n : Nat} (hn : 0 < n) (size : Nat) :
    ∀ path beg, 0 < size → beg < riseEnd rdy n path beg size ∧ riseEnd rdy n path beg size ≤ beg + size := by
  induction size using Nat.strongRecOn with
  | ind size ih =>
    intro path beg hs
    unfold riseEnd
    split
    · omega
    rw [if_neg (by omega)]
    dsimp only
    have h1 := ih (size / 2) (by omega) (false :: path) beg (by omega)
    have h2 := ih (size - size / 2) (by omega) (true :: path) (beg + size / 2) (by omega)
    split <;> omega

theorem scan_calm {F : Fns V E} (h : F.Rethrows) (rdy : List Bool → Bool) {gb : List Bool → Option Nat} {n src dst len : Nat}
    (hg : Harmless F gb src (src + len)) (hn : 0 < n) : G [] .calm (scan F rdy gb n src dst len) := by
  unfold scan
  refine .task (.task ?_)
  split
  · exact .ok
  have := riseEnd_bounds rdy hn len [] src (by omega)
  refine .seq (.task (rise_calm h rdy hg hn len (by omega) .scan .all (by simp) _ _ _ _ (by omega) (by omega))) ?_
  split
  · exact .task (fall_calm h hn _ _ _ _ _ _ _ (by omega) (by omega))
  · exact .ok

theorem foldTop_calm {F : Fns V E} (h : F.Rethrows) {n head len : Nat} (hn : 0 < n) (hl : 0 < len) : G [] .calm (foldTop F n head len) := by
  unfold foldTop
  refine .task (.task ?_)
  split
  · exact foldOne_calm _ hl ..
  · exact foldN_calm h (by omega) _ hl ..

/-! ### When nothing is thrown the algorithms do what the programs of `Algo/Model.lean` and `Algo/ScanModel.lean` do -/

/-- The two programs are at the same point, and nothing was thrown. -/
inductive Sim : Prog V E → Algo.Prog V E → Prop where
  | ok : Sim (.halt .ok) (.halt .ok)
  | atom {w k rs f f'} : (∀ v x, f v = .ok x → f' v = .ok x) → Sim (.atom w k rs f) (.atom w k rs f')
  | seq {p q c d} : Sim p c → Sim q d → Sim (.seq p q) (.seq c d)
  | par {p q c d} : Sim p c → Sim q d → Sim (.par p q) (.par c d)
  | parR {q d} : Sim q d → Sim (.par (.halt .ok) q) d
  | frame {p c} : Sim p c → Sim (.frame none p) c
  | sfork {e p q r c d} : Sim p c → Sim q d → Sim (.sfork e p q r) (.seq c d)
  | sforkA {e p a b r c c1 c2} : Sim p c → Sim a c1 → Sim b c2 → Sim (.sfork e p (.seq a b) r) (.seq (.seq c c1) c2)

theorem seq_steps {p q : Algo.Prog V E} {m p' m'} (h : Algo.Steps p m p' m') : Algo.Steps (.seq p q) m (.seq p' q) m' := by
  induction h with
  | refl => exact .refl
  | head s _ ih => exact .head (.seqStep s) ih

theorem parL_steps {p q : Algo.Prog V E} {m p' m'} (h : Algo.Steps p m p' m') : Algo.Steps (.par p q) m (.par p' q) m' := by
  induction h with
  | refl => exact .refl
  | head s _ ih => exact .head (.parL s) ih

theorem parR_steps {p q : Algo.Prog V E} {m q' m'} (h : Algo.Steps q m q' m') : Algo.Steps (.par p q) m (.par p q') m' := by
  induction h with
  | refl => exact .refl
  | head s _ ih => exact .head (.parR s) ih

theorem sim_step {p : Prog V E} {s p' s'} (h : Step p s p' s') (hl : s'.log = []) (hp : s.pd = none) {c : Algo.Prog V E} (hs : Sim p c) :
    s'.pd = none ∧ ∃ c', Algo.Steps c s.m c' s'.m ∧ Sim p' c' := by
  induction h generalizing c with
  | atomOk h => cases hs with | atom hf => exact ⟨hp, _, .head (.atomOk (hf _ _ h)) .refl, .ok⟩
  | atomErr h => simp at hl
  | atomCap h => simp at hl
  | seqStep _ ih => cases hs with
    | seq h1 h2 => obtain ⟨i1, c', i2, i3⟩ := ih hl hp h1; exact ⟨i1, _, seq_steps i2, .seq i3 h2⟩
  | seqOk => cases hs with | seq h1 h2 => cases h1; exact ⟨hp, _, .head .seqOk .refl, h2⟩
  | seqAbort ho => cases hs with | seq h1 h2 => cases h1; exact absurd rfl ho
  | parL _ ih => cases hs with
    | par h1 h2 =>
      cases h1 with
      | frame h1 => obtain ⟨i1, c', i2, i3⟩ := ih hl rfl h1; dsimp only at i1; subst i1; exact ⟨hp, _, parL_steps i2, .par (.frame i3) h2⟩
  | parR _ ih => cases hs with
    | par h1 h2 =>
      cases h2 with
      | frame h2 => obtain ⟨i1, c', i2, i3⟩ := ih hl rfl h2; dsimp only at i1; subst i1; exact ⟨hp, _, parR_steps i2, .par h1 (.frame i3)⟩
    | parR h2 =>
      cases h2 with
      | frame h2 => obtain ⟨i1, c', i2, i3⟩ := ih hl rfl h2; dsimp only at i1; subst i1; exact ⟨hp, _, i2, .parR (.frame i3)⟩
  | parEndL => cases hs with
    | par h1 h2 => cases h1 with | frame h1 => exact ⟨hp, _, .refl, .par h1 h2⟩
  | parEndR => cases hs with
    | par h1 h2 => cases h2 with | frame h2 => exact ⟨hp, _, .refl, .par h1 h2⟩
    | parR h2 => cases h2 with | frame h2 => exact ⟨hp, _, .refl, .parR h2⟩
  | parJoin hj =>
    rw [hp] at hj
    cases hs with
    | par h1 h2 =>
      cases h1; cases h2; cases hj
      exact ⟨rfl, _, .head (.parJoin .ok) .refl, .ok⟩
    | parR h2 =>
      cases h2; cases hj
      exact ⟨rfl, _, .refl, .ok⟩
  | sforkStep _ ih => cases hs with
    | sfork h1 h2 => obtain ⟨i1, c', i2, i3⟩ := ih hl hp h1; exact ⟨i1, _, seq_steps i2, .sfork i3 h2⟩
    | sforkA h1 h2 h3 => obtain ⟨i1, c', i2, i3⟩ := ih hl hp h1; exact ⟨i1, _, seq_steps (seq_steps i2), .sforkA i3 h2 h3⟩
  | sforkOk => cases hs with
    | sfork h1 h2 => cases h1; exact ⟨hp, _, .head .seqOk .refl, h2⟩
    | sforkA h1 h2 h3 => cases h1; exact ⟨hp, _, .head (.seqStep .seqOk) .refl, .seq h2 h3⟩
  | sforkUb => cases hs with
    | sfork h1 _ => cases h1
    | sforkA h1 _ _ => cases h1
  | sforkThrow => cases hs with
    | sfork h1 _ => cases h1
    | sforkA h1 _ _ => cases h1
  | sforkCap => cases hs with
    | sfork h1 _ => cases h1
    | sforkA h1 _ _ => cases h1
  | frameStep _ ih => cases hs with
    | frame h1 => obtain ⟨i1, c', i2, i3⟩ := ih hl rfl h1; dsimp only at i1; subst i1; exact ⟨hp, _, i2, .frame i3⟩
  | frameEnd => cases hs with
    | frame h1 => exact ⟨hp, _, .refl, h1⟩

theorem steps_log {p : Prog V E} {s p' s'} (h : Steps p s p' s') : ∀ x ∈ s.log, x ∈ s'.log := by
  induction h with
  | refl => exact fun _ h => h
  | head st _ ih => exact fun x hx => ih _ (step_log st x hx)

theorem sim_steps {p : Prog V E} {s p' s'} (h : Steps p s p' s') (hl : s'.log = []) (hp : s.pd = none) {c : Algo.Prog V E} (hs : Sim p c) :
    ∃ c', Algo.Steps c s.m c' s'.m ∧ Sim p' c' := by
  induction h generalizing c with
  | refl => exact ⟨c, .refl, hs⟩
  | head st t ih =>
    have : _ = [] := List.eq_nil_iff_forall_not_mem.2 fun x hx => by have := steps_log t x hx; rw [hl] at this; cases this
    obtain ⟨h1, c1, h2, h3⟩ := sim_step st this hp hs
    obtain ⟨c2, h4, h5⟩ := ih hl h1 h3
    exact ⟨c2, h2.trans h4, h5⟩

section
variable {F : Fns V E} {pr : V → V} {op : V → V → V} (hpr : ∀ x y, F.pr x = .ok y → y = pr x) (hop : ∀ a b y, F.op a b = .ok y → y = op a b)

include hpr in
theorem proj_ok {x y : V} (h : F.proj x = .ok y) : y = pr x := by
  unfold Fns.proj thrown at h; split at h
  · rename_i v hv; cases h; exact hpr _ _ hv
  · cases h

include hop in
theorem bop_ok {a b y : V} (h : F.bop a b = .ok y) : y = op a b := by
  unfold Fns.bop at h; split at h
  · rename_i v hv; cases h; exact hop _ _ _ hv
  · cases h

include hpr hop in
theorem acc_ok {a b y : V} (h : F.acc a b = .ok y) : y = op a (pr b) := by
  unfold Fns.acc at h; split at h
  · rename_i z hz; rw [bop_ok hop h, proj_ok hpr hz]
  · cases h

theorem sim_copy (w a : Loc) : Sim (V := V) (E := E) (atom1 w a .ok) (.atom1 w a .ok) := .atom fun _ _ h => by
  cases h; rfl

include hpr in
theorem sim_proj (w a : Loc) : Sim (atom1 w a F.proj) (.atom1 w a fun v => .ok (pr v)) := .atom fun v x h => by
  rw [proj_ok hpr h]

include hop in
theorem sim_bop (w a b : Loc) : Sim (atom2 w a b F.bop) (.atom2 w a b fun x y => .ok (op x y)) := .atom fun v x h => by
  rw [bop_ok hop h]

include hpr hop in
theorem sim_acc (w a b : Loc) : Sim (atom2 w a b F.acc) (.atom2 w a b fun x y => .ok (op x (pr y))) := .atom fun v x h => by
  rw [acc_ok hpr hop h]

include hpr hop in
theorem sim_foldLoop (acc : Loc) (k : Nat) : ∀ head, Sim (foldLoop F acc head k)
    (Algo.foldLoop (fun v => .ok (pr v)) (fun a b => .ok (op a b)) acc head k) := by
  induction k with
  | zero => exact fun _ => .ok
  | succ k ih => exact fun head => .seq (sim_acc hpr hop ..) (ih _)

include hpr hop in
theorem sim_scanLoop (acc : Loc) (k : Nat) : ∀ beg out, Sim (scanLoop F acc beg out k) (Algo.scanLoop pr op acc beg out k) := by
  induction k with
  | zero => exact fun _ _ => .ok
  | succ k ih => exact fun beg out => .seq (sim_acc hpr hop ..) (.seq (sim_copy ..) (ih _ _))

include hop in
theorem sim_last (w a b : Loc) : Sim (atom2 w a b fun x y => thrown (F.op x y)) (.atom2 w a b fun x y => .ok (op x y)) :=
  .atom fun v x h => by
    have : ∀ z : Except E V, thrown z = .ok x → z = .ok x := fun z => by cases z <;> simp [thrown]
    rw [hop _ _ _ (this _ h)]

include hpr hop in
theorem sim_foldN (n : Nat) (hn : 1 < n) (len : Nat) : ∀ ret path head, 0 < len → Sim (foldN F n ret path head len)
    (Algo.foldN (fun v => .ok (pr v)) (fun a b => .ok (op a b)) n ret path head len) := by
  induction len using Nat.strongRecOn with
  | ind len ih =>
    intro ret path head hl
    unfold foldN Algo.foldN
    simp only [if_neg (show ¬ n ≤ 1 by omega), if_neg (show ¬ len = 0 by omega)]
    split
    · exact .seq (sim_proj hpr ..) (.seq (sim_foldLoop hpr hop ..) (sim_copy ..))
    · simp only [if_neg (show ¬ (len / 2 = 0 ∨ len - len / 2 = 0) by omega)]
      exact .seq (.par (.frame (ih _ (by omega) _ _ _ (by omega))) (.frame (ih _ (by omega) _ _ _ (by omega)))) (sim_last hop ..)

include hpr hop in
theorem sim_foldOne (len : Nat) : ∀ ret path head, 0 < len → Sim (foldOne F ret path head len)
    (Algo.foldOne (fun v => .ok (pr v)) (fun a b => .ok (op a b)) ret path head len) := by
  induction len using Nat.strongRecOn with
  | ind len ih =>
    intro ret path head hl
    unfold foldOne Algo.foldOne
    simp only [if_neg (show ¬ len = 0 by omega)]
    split
    · exact sim_proj hpr ..
    · simp only [if_neg (show ¬ (len / 2 = 0 ∨ len - len / 2 = 0) by omega)]
      exact .seq (.par (.frame (ih _ (by omega) _ _ _ (by omega))) (.frame (ih _ (by omega) _ _ _ (by omega)))) (sim_last hop ..)

include hpr hop in
theorem sim_riseLeaf (o : SOp) (iv : Ival) (ho : o = .fold → iv = .mid ∨ iv = .rhs) (path : List Bool) (beg size out : Nat) :
    Sim (riseLeaf F o iv path beg size out) (Algo.riseLeaf pr op o iv path beg size out) := by
  cases o with
  | fold =>
    rcases ho rfl with rfl | rfl
    · exact .seq (sim_proj hpr ..) (.seq (sim_foldLoop hpr hop ..) (sim_copy ..))
    · exact .ok
  | scan =>
    cases iv
    · exact .seq (sim_proj hpr ..) (.seq (sim_copy ..) (sim_scanLoop hpr hop ..))
    · exact .seq (sim_proj hpr ..) (.seq (sim_copy ..) (sim_scanLoop hpr hop ..))
    · exact .seq (sim_copy ..) (sim_scanLoop hpr hop ..)
    · exact .seq (sim_copy ..) (sim_scanLoop hpr hop ..)

include hpr hop in
theorem sim_rise (rdy : List Bool → Bool) (gb : List Bool → Option Nat) {n : Nat} (hn : 0 < n) (size : Nat) :
    0 < size → ∀ (o : SOp) (iv : Ival), (o = .fold → iv = .mid ∨ iv = .rhs) → ∀ path beg out,
      Sim (rise F rdy gb n o iv path beg size out) (riseP pr op rdy n o iv path beg size out) := by
  induction size using Nat.strongRecOn with
  | ind size ih =>
    intro hs o iv ho path beg out
    unfold rise riseP
    simp only [if_neg (show ¬ size = 0 by omega)]
    split
    · exact sim_riseLeaf hpr hop o iv ho ..
    simp only [if_neg (show ¬ size < 2 by omega)]
    have hr : SOp.fold = SOp.fold → iv.r = .mid ∨ iv.r = .rhs := fun _ => by cases iv <;> simp [Ival.r]
    have hL := ih (size / 2) (by omega) (by omega) o iv.l (fun e => by rcases ho e with rfl | rfl <;> simp [Ival.l]) (false :: path) beg out
    have hF := ih (size - size / 2) (by omega) (by omega) .fold iv.r hr (true :: path) (beg + size / 2) (out + size / 2)
    have hS := ih (size - size / 2) (by omega) (by omega) .scan iv.r (by simp) (true :: path) (beg + size / 2) (out + size / 2)
    have hC : Sim (if iv = .lhs ∨ iv = .mid then
        Throw.atom2 (.cell (out + size - 1)) (.cell (out + size / 2 - 1)) (.cell (out + size - 1)) F.bop else .halt .ok : Prog V E)
        (if iv = .lhs ∨ iv = .mid then
        .atom2 (.cell (out + size - 1)) (.cell (out + size / 2 - 1)) (.cell (out + size - 1)) (fun a b => .ok (op a b)) else .halt .ok) := by
      split
      · exact sim_bop hop ..
      · exact .ok
    cases o with
    | fold => exact .seq (.par (.frame hL) (.frame hF)) hC
    | scan =>
      dsimp only
      by_cases h1 : rdy path = true
      · rw [if_pos h1]
        by_cases h2 : riseEnd rdy n (false :: path) beg (size / 2) = beg + size / 2
        · rw [if_pos h2, if_pos (show rdy path = true ∧ riseEnd rdy n (false :: path) beg (size / 2) = beg + size / 2 from ⟨h1, h2⟩)]
          exact .sfork (.frame hL) (.frame hS)
        · rw [if_neg h2, if_neg (show ¬ (rdy path = true ∧ riseEnd rdy n (false :: path) beg (size / 2) = beg + size / 2) from fun h => h2 h.2), if_pos h1]
          exact .sforkA (.frame hL) (.parR (.frame hF)) hC
      · rw [if_neg h1, if_neg (show ¬ (rdy path = true ∧ riseEnd rdy n (false :: path) beg (size / 2) = beg + size / 2) from fun h => h1 h.1), if_neg h1]
        exact .seq (.par (.frame hL) (.frame hF)) hC

include hpr hop in
theorem sim_fallImpl {n : Nat} (hn : 0 < n) (size : Nat) : 0 < size → ∀ (iv : Ival),
    iv = .mid ∨ iv = .rhs → ∀ path beg out, Sim (fallImpl F n iv path beg size out) (fallImplP pr op n iv path beg size out) := by
  induction size using Nat.strongRecOn with
  | ind size ih =>
    intro hs iv ho path beg out
    unfold fallImpl fallImplP
    simp only [if_neg (show ¬ (iv = .all ∨ iv = .lhs) by rcases ho with rfl | rfl <;> simp), if_neg (show ¬ size = 0 by omega)]
    split
    · exact .seq (sim_copy ..) (sim_scanLoop hpr hop ..)
    simp only [if_neg (show ¬ size < 2 by omega)]
    exact .seq (sim_bop hop ..) (.par (.frame (ih _ (by omega) (by omega) _ (by rcases ho with rfl | rfl <;> simp [Ival.l]) ..))
      (.frame (ih _ (by omega) (by omega) _ (by rcases ho with rfl | rfl <;> simp [Ival.r]) ..)))

include hpr hop in
theorem sim_fall {n : Nat} (hn : 0 < n) (size : Nat) : ∀ (iv : Ival) (path : List Bool)
    (beg out se : Nat), beg < se → se < beg + size → Sim (fall F n iv path beg size out se) (fallP pr op n iv path beg size out se) := by
  induction size using Nat.strongRecOn with
  | ind size ih =>
    intro iv path beg out se h1 h2
    unfold fall fallP
    have hr : iv.r = .mid ∨ iv.r = .rhs := by cases iv <;> simp [Ival.r]
    simp only [dif_pos h2, dif_neg (show ¬ size = 0 by omega)]
    have hI := sim_fallImpl hpr hop hn (size - size / 2) (by omega) iv.r hr (true :: path) (beg + size / 2) (out + size / 2)
    split
    · exact .par (.frame (ih (size / 2) (by omega) _ _ _ _ _ h1 (by omega))) (.frame hI)
    split
    · exact .frame hI
    · exact .frame (ih (size - size / 2) (by omega) _ _ _ _ _ (by omega) (by omega))

include hpr hop in
theorem sim_scan (rdy : List Bool → Bool) (gb : List Bool → Option Nat) {n src dst len : Nat} (hn : 0 < n) :
    Sim (scan F rdy gb n src dst len) (scanP pr op rdy n src dst len) := by
  unfold scan scanP
  refine .frame (.frame ?_)
  split
  · exact .ok
  have := riseEnd_bounds rdy hn len [] src (by omega)
  refine .seq (.frame (sim_rise hpr hop rdy gb hn len (by omega) .scan .all (by simp) ..)) ?_
  split
  · exact .frame (sim_fall hpr hop hn _ _ _ _ _ _ (by omega) (by omega))
  · exact .ok

end

/-! ### Property theorems -/

/-- **C48, full statement for `fold`.** -/
def FoldPropagates (V E : Type) (F : Fns V E) : Prop := ∀ n head len : Nat, 0 < n → 0 < len → Propagates (foldTop F n head len)

/-- **C48, full statement for `scan`.** -/
def ScanPropagates (V E : Type) (F : Fns V E) (gb : List Bool → Option Nat) : Prop :=
  ∀ (rdy : List Bool → Bool) (n src dst len : Nat), 0 < n → Propagates (scan F rdy gb n src dst len)

/-- **C48, synchronous operators, fold.** If the operator is synchronous, `fold` ends normally exactly if neither the projection nor the
operator threw, otherwise with one of the exceptions thrown; for every chunk size, length and interleaving. -/
theorem fold_propagates_partial {F : Fns V E} (h : F.async = false) : FoldPropagates V E F :=
  fun _ _ _ hn hl => propagates_of_calm (foldTop_calm (.inl h) hn hl)

/-- **C48, synchronous operators, scan.** The same for `scan`, if an iterator that was not assigned never compares equal to an iterator
strictly inside the range. -/
theorem scan_propagates_partial {F : Fns V E} (h : F.async = false) {gb : List Bool → Option Nat} (rdy : List Bool → Bool)
    {n src dst len : Nat} (hn : 0 < n) (hg : ∀ path, ∃ v, gb path = some v ∧ (v ≤ src ∨ src + len ≤ v)) :
    Propagates (scan F rdy gb n src dst len) :=
  propagates_of_calm (scan_calm (.inl h) rdy (.inr hg) hn)

/-- If the modifiers rethrew as their documentation says, both would hold for every operator, synchronous or not, whatever an unassigned
iterator holds. -/
theorem propagates_if_eager {F : Fns V E} (h : F.eag = true) (gb : List Bool → Option Nat) :
    FoldPropagates V E F ∧ ScanPropagates V E F gb :=
  ⟨fun _ _ _ hn hl => propagates_of_calm (foldTop_calm (.inr h) hn hl),
   fun rdy _ _ _ _ hn => propagates_of_calm (scan_calm (.inr h) rdy (.inl h) hn)⟩

/-- **C48, results.** Whatever may throw: if nothing was thrown then the result of `scan` is the right one (`pr` and `op` are what the
projection and the operator return when they do not throw), the operator being asynchronous or not. -/
theorem scan_result {F : Fns V E} {pr : V → V} {op : V → V → V} (hpr : ∀ x y, F.pr x = .ok y → y = pr x)
    (hop : ∀ a b y, F.op a b = .ok y → y = op a b) (assoc : ∀ a b c, op (op a b) c = op a (op b c))
    {gb : List Bool → Option Nat} {rdy : List Bool → Bool} {n src dst len : Nat} (hn : 0 < n) (ha : SameOrApart src dst len)
    {m : Mem Loc V} {o : Out E} {s : St Loc V E} (h : Steps (scan F rdy gb n src dst len) (start m) (.halt o) s) (hl : s.log = []) :
    o = .ok ∧
    (∀ i < len, s.m (.cell (dst + i)) = ((cells m (src + 1) i).map pr).foldl op (pr (m (.cell src)))) ∧
    (∀ c, ¬ (dst ≤ c ∧ c < dst + len) → s.m (.cell c) = m (.cell c)) := by
  obtain ⟨c', h1, h2⟩ := sim_steps h hl rfl (sim_scan hpr hop rdy gb hn)
  cases h2
  exact scan_correct pr op assoc hn ha rdy h1

/-- The same for `fold`. -/
theorem fold_result {F : Fns V E} {pr : V → V} {op : V → V → V} (hpr : ∀ x y, F.pr x = .ok y → y = pr x)
    (hop : ∀ a b y, F.op a b = .ok y → y = op a b) (assoc : ∀ a b c, op (op a b) c = op a (op b c))
    {n head len : Nat} (hn : 0 < n) (hlen : 0 < len)
    {m : Mem Loc V} {o : Out E} {s : St Loc V E} (h : Steps (foldTop F n head len) (start m) (.halt o) s) (hl : s.log = []) :
    o = .ok ∧ (∀ a, s.m (.cell a) = m (.cell a)) ∧
    s.m .res = ((cells m (head + 1) (len - 1)).map pr).foldl op (pr (m (.cell head))) := by
  obtain ⟨p, e, hp⟩ := fold_correct (E := E) pr op assoc n head len hn hlen
  have hs : Sim (foldTop F n head len) p := by
    unfold Algo.foldTop at e
    rw [if_neg (by omega)] at e
    unfold foldTop
    refine .frame (.frame ?_)
    split at e
    · rename_i h1; cases e; rw [if_pos h1]; exact sim_foldOne hpr hop len _ _ _ hlen
    · rename_i h1; cases e; rw [if_neg h1]; exact sim_foldN hpr hop n (by omega) len _ _ _ hlen
  obtain ⟨c', h1, h2⟩ := sim_steps h hl rfl hs
  cases h2
  exact hp _ _ _ h1

end Verif.Algo.Throw
