import Verif.Weak.Sim
import Verif.Weak.Spec

/-! The simulation by the abstract deque. -/
namespace Verif.Weak
open Verif.Deque (Ev OOp ORet SRet setT AState AO AT AStep)
variable {ι : Type} [DecidableEq ι]

/-- The elements with index in `[T, B)`. -/
def elems (ct : Int → Int) (T B : Int) : List Int := (List.range (B - T).toNat).map (fun i => ct (T + (i : Nat)))

theorem elems_nil (ct : Int → Int) {T B : Int} (h : B ≤ T) : elems ct T B = [] := by
  have : (B - T).toNat = 0 := by omega
  simp [elems, this]

theorem elems_snoc (ct : Int → Int) {T B : Int} (h : T ≤ B) : elems ct T (B + 1) = elems ct T B ++ [ct B] := by
  have h1 : (B + 1 - T).toNat = (B - T).toNat + 1 := by omega
  have h2 : T + (((B - T).toNat : Nat) : Int) = B := by omega
  simp only [elems, h1, List.range_succ, List.map_append, List.map_cons, List.map_nil, h2]

theorem elems_cons (ct : Int → Int) {T B : Int} (h : T < B) : elems ct T B = ct T :: elems ct (T + 1) B := by
  have h1 : (B - T).toNat = (B - (T + 1)).toNat + 1 := by omega
  simp only [elems, h1, List.range_succ_eq_map, List.map_cons, List.map_map]
  congr 1
  · simp
  · apply List.map_congr_left
    intro i _
    simp only [Function.comp_apply]
    congr 1
    push_cast
    omega

theorem elems_upd (ct : Int → Int) {T B b : Int} (h : B ≤ b) (v : Int) : elems (upd ct b v) T B = elems ct T B := by
  apply List.map_congr_left
  intro i hi
  have := List.mem_range.1 hi
  unfold upd
  rw [if_neg (by omega)]

/-- The abstract owner. -/
def absO (ct : Int → Int) : OPc → AO Int
  | .idle => .idle
  | .ret r => .done r
  | .push0 v | .push1 v _ | .push2 v _ _ | .copy v _ _ _ _ | .push4 v _ _ | .push5 v _ _ | .push6 v _ | .push7 v _ => .pend (.push v)
  | .pop0 | .pop1 _ | .pop2 _ _ | .popF _ _ | .pop3 _ _ | .pop4 _ _ => .pend .pop
  | .pop5 _ => .done .none
  | .pop6 b _ | .pop7 b _ => .done (.got (ct b))

/-- The abstract thief. -/
def absT : TPc → AT Int
  | .idle => .idle
  | .ret r => .done r
  | _ => .pend false

def abs (ct : Int → Int) (s : St ι) : AState ι Int :=
  { q := elems ct (tp s) (logB s), owner := absO ct s.opc, thief := fun i => absT (s.tpc i) }

theorem abs_setT (f : ι → TPc) (i : ι) (x : TPc) : (fun j => absT (setT f i x j)) = setT (fun j => absT (f j)) i (absT x) := by
  funext j; unfold setT; split <;> rfl

theorem setT_same {α : Type} (f : ι → α) (i : ι) (x : α) (h : f i = x) : setT f i x = f := by
  funext j; unfold setT; split
  · subst_vars; rfl
  · rfl

theorem setT_idem {α : Type} (f : ι → α) (i : ι) (x y : α) : setT (setT f i x) i y = setT f i y := by
  funext j; unfold setT; split <;> rfl

/-- A step is either invisible to the abstract machine or a step of it. -/
def Matches (a : AState ι Int) (e : Option (Ev ι Int)) (a' : AState ι Int) : Prop := (e = none ∧ a' = a) ∨ WStep a e a'

theorem simPush5 {relBuf : Bool} {cap : Nat} {s : St ι} {ct : Int → Int} (h : Inv cap ct s)
    {v b : Int} {buf : Nat} (hpc : s.opc = .push5 v b buf) :
    abs (upd ct b v) { s with
      mem := s.mem.store s.otv (slot cap buf b) v false, otv := s.otv.bump s.mem (slot cap buf b), opc := .push6 v b } =
    abs ct s := by
  have ip := h.b.ip
  unfold IP at ip
  rw [hpc] at ip
  simp only [Pc] at ip
  have e1 := elems_upd ct (T := (s.mem.len .top : Int) - 1) (B := s.mem.lastv .bot) (b := b)
    (by unfold lastB at ip; omega) v
  simpa [abs, hpc, absO, tp, logB, lowered, lastB, Mem.store, Mem.len_append, Mem.lastv_append] using e1

theorem simStep {relBuf : Bool} {cap : Nat} {s s' : St ι} {e : Option (Ev ι Int)} {ct : Int → Int} (h : Inv cap ct s)
    (hp5 : ∀ v b buf, s.opc ≠ .push5 v b buf ∨ s'.opc = s.opc) (st : Step relBuf cap s e s') :
    Matches (abs ct s) e (abs ct s') := by
  obtain ⟨⟨w, ow, vr, vs, ip, ic, id⟩, g, ov, th⟩ := h
  have ht0 := w.m.pos .top
  have hle := ip.le
  unfold IP at ip
  have hTv : s.mem.val .top (s.mem.last .top) = tp s := by
    have := vs.topv (s.mem.last .top) (by unfold Mem.last; omega)
    unfold tp; unfold Mem.last at *; omega
  cases st
  case push5 v b buf hpc =>
    rcases hp5 v b buf with h1 | h1
    · exact absurd hpc h1
    · rw [hpc] at h1; cases h1
  case oinvPush v hpc =>
    right; left
    have : abs ct { s with opc := .push0 v } = { abs ct s with owner := .pend (.push v) } := by
      simp [abs, hpc, tp, logB, lastB, lowered, absO]
    rw [this]; exact .oinv (by simp [abs, hpc, absO])
  case oinvPop hpc =>
    right; left
    have : abs ct { s with opc := .pop0 } = { abs ct s with owner := .pend .pop } := by
      simp [abs, hpc, tp, logB, lastB, lowered, absO]
    rw [this]; exact .oinv (by simp [abs, hpc, absO])
  case oret r hpc =>
    right; left
    have : abs ct { s with opc := .idle } = { abs ct s with owner := .idle } := by
      simp [abs, hpc, tp, logB, lastB, lowered, absO]
    rw [this]; exact .ores (by simp [abs, hpc, absO])
  case sinv i hpc =>
    right; left
    have : abs ct { s with tpc := setT s.tpc i .st0 } = { abs ct s with thief := setT (abs ct s).thief i (.pend false) } := by
      simp only [abs, tp, logB, lastB, abs_setT]; rfl
    rw [this]; exact .sinv (by simp [abs, hpc, absT])
  case sret i r hpc =>
    right; left
    have : abs ct { s with tpc := setT s.tpc i .idle } = { abs ct s with thief := setT (abs ct s).thief i .idle } := by
      simp only [abs, tp, logB, lastB, abs_setT]; rfl
    rw [this]; exact .sres (by simp [abs, hpc, absT])
  case push7 v b hpc =>
    right; left
    rw [hpc] at ip ov
    simp only [Pc, OV] at ip ov
    have h1 := elems_snoc ct (T := tp s) (B := b) (by omega)
    have : ∀ o : TV Loc, abs ct { s with mem := s.mem.store s.otv .bot (b + 1) false, otv := o, opc := .ret .pushed } =
        { abs ct s with q := (abs ct s).q ++ [v], owner := .done .pushed } := by
      intro o
      have h2 : lastB s = b := by omega
      simp only [tp] at h1
      simp [abs, hpc, tp, logB, h2, lowered, absO, Mem.store, Mem.len_append]
      rw [← ov.2.1, ← h1]
      simp [lastB, Mem.lastv_append]
    rw [this]; exact .linPush (by simp [abs, hpc, absO])
  case push2throw v b t i hpc hc h1 =>
    right; left
    have : ∀ o : TV Loc, abs ct { s with otv := o, opc := .ret (.threw v) } = { abs ct s with owner := .done (.threw v) } := by
      intro o; simp [abs, hpc, tp, logB, lastB, lowered, absO]
    rw [this]; exact .linThrow (by simp [abs, hpc, absO])
  case pop3lt b buf i hpc hc h1 =>
    right; left
    rw [hpc] at ip
    simp only [Pc] at ip
    have h2 := (ic.p3 (by rw [hpc]; rfl)).2
    have h3 := vs.topv i hc.2
    have h4 := hc.1
    have h5 := elems_snoc ct (T := tp s) (B := b) (by omega)
    have e1 : lastB s = b := by omega
    have : ∀ o : TV Loc, abs ct { s with otv := o, opc := .pop7 b buf } =
        { abs ct s with q := elems ct (tp s) b, owner := .done (.got (ct b)) } := by
      intro o
      have e2 : s.mem.lastv .bot = b := e1
      simp [abs, tp, logB, lowered, absO, lastB, e2]
    rw [this]
    refine .linPop (by simp [abs, hpc, absO]) ?_
    simp only [abs, logB, hpc, lowered, if_true, e1]
    exact h5
  case pop3gt b buf i hpc hc h1 =>
    right; left
    rw [hpc] at ip
    simp only [Pc] at ip
    have h3 := vs.topv i hc.2
    have h4 := hc.2
    have : ∀ o : TV Loc, abs ct { s with otv := o, opc := .pop5 b } = { abs ct s with owner := .done .none } := by
      intro o; simp [abs, hpc, tp, logB, lastB, lowered, absO]
    rw [this]
    refine .linPopEmpty (by simp [abs, hpc, absO]) ?_
    simp only [abs, logB, hpc, lowered, if_true]
    exact elems_nil _ (by unfold tp at *; omega)
  case pop4fail b buf i hpc hc h1 =>
    right; left
    rw [hpc] at ip
    simp only [Pc] at ip
    have h3 := vs.topv i hc.2
    have h4 := hc.2
    have h5 := hc.1
    have : ∀ o : TV Loc, abs ct { s with otv := o, opc := .pop5 b } = { abs ct s with owner := .done .none } := by
      intro o; simp [abs, hpc, tp, logB, lastB, lowered, absO]
    rw [this]
    refine .linPopEmpty (by simp [abs, hpc, absO]) ?_
    simp only [abs, logB, hpc, lowered, if_true]
    exact elems_nil _ (by unfold tp at *; omega)
  case pop4ok b buf hpc h1 =>
    right; left
    rw [hpc] at ip
    simp only [Pc] at ip
    rw [hTv] at h1
    have h5 := elems_snoc ct (T := tp s) (B := b) (by omega)
    have e1 : lastB s = b := by omega
    have e2 : s.mem.lastv .bot = b := e1
    have e3 : (s.mem.len .top : Int) = b + 1 := by unfold tp at h1; omega
    have : ∀ o : TV Loc, abs ct { s with mem := s.mem.rmw s.otv .top (b + 1), otv := o, opc := .pop6 b buf } =
        { abs ct s with q := elems ct (tp s) b, owner := .done (.got (ct b)) } := by
      intro o
      have h6 := elems_nil ct (T := b + 1) (B := b + 1) (by omega)
      have h7 := elems_nil ct (T := tp s) (B := b) (by omega)
      simp [abs, tp, logB, lowered, absO, lastB, e2, Mem.rmw, Mem.len_append, Mem.lastv_append, e3]
      simp only [tp, e3] at h7
      rw [h6]
      simpa using h7.symm
    rw [this]
    refine .linPop (by simp [abs, hpc, absO]) ?_
    simp only [abs, logB, hpc, lowered, if_true, e1]
    exact h5
  case st4ok i t k v hpc h1 =>
    right; left
    rw [hTv] at h1
    have hx := th i
    rw [hpc] at hx
    have hv : v = ct t := hx h1
    have hl := (st4_live (cap := cap) w id i t k v hpc h1).1
    have h2 := elems_cons ct (T := tp s) (B := logB s) (by omega)
    have : ∀ o : ι → TV Loc, abs ct { s with mem := s.mem.rmw (s.ttv i) .top (t + 1), ttv := o, tpc := setT s.tpc i (.ret (.got v)) } =
        { abs ct s with q := elems ct (tp s + 1) (logB s), thief := setT (abs ct s).thief i (.done (.got v)) } := by
      intro o
      simp only [abs, tp, logB, lastB, abs_setT, Mem.rmw, Mem.len_append, Mem.lastv_append]
      simp [absT]
    rw [this]
    refine .linSteal (d := false) (by simp [abs, hpc, absT]) ?_
    simp only [abs]
    rw [h2, hv, h1]
  case st1empty i t k hpc hc h1 =>
    right
    have : ∀ o : ι → TV Loc, abs ct { s with ttv := o, tpc := setT s.tpc i (.ret .empty) } =
        { abs ct s with thief := setT (abs ct s).thief i (.done .empty) } := by
      intro o; simp only [abs, tp, logB, lastB, abs_setT]; rfl
    rw [this]
    exact .spurious (d := false) (by simp [abs, hpc, absT]) (.inr rfl)
  case st4fail i t k v j hpc hc h1 =>
    right
    have : ∀ o : ι → TV Loc, abs ct { s with ttv := o, tpc := setT s.tpc i (.ret .lost) } =
        { abs ct s with thief := setT (abs ct s).thief i (.done .lost) } := by
      intro o; simp only [abs, tp, logB, lastB, abs_setT]; rfl
    rw [this]
    exact .spurious (d := false) (by simp [abs, hpc, absT]) (.inl rfl)
  case st0 i j hpc hc =>
    left
    refine ⟨rfl, ?_⟩
    have e := setT_same (fun j => absT (s.tpc j)) i (.pend false) (by simp [hpc, absT])
    simp only [abs, tp, logB, lastB, abs_setT]
    exact congrArg (AState.mk _ _) e
  case stF i t hpc =>
    left
    refine ⟨rfl, ?_⟩
    have e := setT_same (fun j => absT (s.tpc j)) i (.pend false) (by simp [hpc, absT])
    simp only [abs, tp, logB, lastB, abs_setT, Mem.fenceSC, Mem.lastv, Mem.len, Mem.val, Mem.last]
    exact congrArg (AState.mk _ _) e
  case st1 i t k hpc hc h1 =>
    left
    refine ⟨rfl, ?_⟩
    have e := setT_same (fun j => absT (s.tpc j)) i (.pend false) (by simp [hpc, absT])
    simp only [abs, tp, logB, lastB, abs_setT]
    exact congrArg (AState.mk _ _) e
  case st2 i t k j hpc hc =>
    left
    refine ⟨rfl, ?_⟩
    have e := setT_same (fun j => absT (s.tpc j)) i (.pend false) (by simp [hpc, absT])
    simp only [abs, tp, logB, lastB, abs_setT]
    exact congrArg (AState.mk _ _) e
  case st3 i t k buf j hpc hc =>
    left
    refine ⟨rfl, ?_⟩
    have e := setT_same (fun j => absT (s.tpc j)) i (.pend false) (by simp [hpc, absT])
    simp only [abs, tp, logB, lastB, abs_setT]
    exact congrArg (AState.mk _ _) e
  case osync hpc _ => left; exact ⟨rfl, rfl⟩
  case odata n v hpc =>
    left; refine ⟨rfl, ?_⟩
    simp [abs, tp, logB, lastB, Mem.store, Mem.len_append, Mem.lastv_append]
  case tdata i n v hpc =>
    left; refine ⟨rfl, ?_⟩
    simp [abs, tp, logB, lastB, Mem.store, Mem.len_append, Mem.lastv_append]
  case tsync i w' hpc _ => left; exact ⟨rfl, rfl⟩
  case pop2 b buf hpc =>
    left
    refine ⟨rfl, ?_⟩
    rw [hpc] at ip
    simp only [Pc, lastB] at ip
    have e2 : s.mem.lastv .bot = b + 1 := by omega
    simp [abs, hpc, tp, logB, lastB, lowered, absO, Mem.store, Mem.len_append, Mem.lastv_append, e2]
  case pop5 b hpc =>
    left
    refine ⟨rfl, ?_⟩
    rw [hpc] at ip
    simp only [Pc, lastB] at ip
    have e2 : s.mem.lastv .bot = b := by omega
    simp [abs, hpc, tp, logB, lastB, lowered, absO, Mem.store, Mem.len_append, Mem.lastv_append, e2]
  case pop6 b buf hpc =>
    left
    refine ⟨rfl, ?_⟩
    rw [hpc] at ip
    simp only [Pc, lastB] at ip
    have e2 : s.mem.lastv .bot = b := by omega
    simp [abs, hpc, tp, logB, lastB, lowered, absO, Mem.store, Mem.len_append, Mem.lastv_append, e2]
  case pop7 b buf i hpc hc =>
    left
    refine ⟨rfl, ?_⟩
    rw [hpc] at ov
    have h4 := ow (slot cap buf b) (by simp)
    have e1 : i = s.mem.len (slot cap buf b) - 1 := by have := hc.1; have := hc.2; omega
    have e2 : s.mem.val (slot cap buf b) i = ct b := by rw [e1]; exact ov
    simp [abs, hpc, tp, logB, lastB, lowered, absO, e2]
  case popF b buf hpc =>
    left
    refine ⟨rfl, ?_⟩
    simp [abs, hpc, tp, logB, lastB, lowered, absO, Mem.fenceSC, Mem.lastv]
  case copy v b t i buf j hpc h1 hc =>
    left
    refine ⟨rfl, ?_⟩
    simp [abs, hpc, tp, logB, lastB, lowered, absO, Mem.store, Mem.len_append, Mem.lastv_append]
  case push4 v b nb hpc =>
    left
    refine ⟨rfl, ?_⟩
    simp [abs, hpc, tp, logB, lastB, lowered, absO, Mem.store, Mem.len_append, Mem.lastv_append]
  all_goals
    left
    refine ⟨rfl, ?_⟩
    first
      | (rename_i hpc; simp [abs, hpc, tp, logB, lastB, lowered, absO]; done)
      | (rename_i hpc _; simp [abs, hpc, tp, logB, lastB, lowered, absO]; done)
      | (rename_i hpc _ _; simp [abs, hpc, tp, logB, lastB, lowered, absO]; done)

/-- The number of buffers never decreases. -/
theorem len_ptr_mono {relBuf : Bool} {cap : Nat} {s s' : St ι} {e : Option (Ev ι Int)} (st : Step relBuf cap s e s') :
    s.mem.len .ptr ≤ s'.mem.len .ptr := by
  cases st <;> simp only [Mem.store, Mem.rmw, Mem.fenceSC] <;> first | exact Nat.le_refl _ | exact Mem.len_le_append _ _ _ _ _

theorem inv_step {relBuf : Bool} {cap : Nat} (hc0 : 0 < cap) {s s' : St ι} {e : Option (Ev ι Int)} {ct : Int → Int}
    (h : Inv cap ct s) (hb : relBuf = true ∨ s'.mem.len .ptr = 1) (st : Step relBuf cap s e s') :
    ∃ ct', Inv cap ct' s' ∧ Matches (abs ct s) e (abs ct' s') := by
  by_cases hp : ∀ v b buf, s.opc ≠ .push5 v b buf ∨ s'.opc = s.opc
  · exact ⟨ct, h.stepOther hc0 hb hp st, simStep h hp st⟩
  · simp only [not_forall, not_or] at hp
    obtain ⟨v, b, buf, h1, h2⟩ := hp
    have h1 := Classical.not_not.1 h1
    have h3 := h.stepPush5 (relBuf := relBuf) hc0 h1
    have h4 := simPush5 (relBuf := relBuf) h h1
    refine ⟨upd ct b v, ?_⟩
    cases st
    case push5 hpc =>
      rw [h1] at hpc
      cases hpc
      exact ⟨h3, .inl ⟨rfl, h4⟩⟩
    all_goals first
      | (exact absurd rfl h2)
      | (rename_i hpc; rw [h1] at hpc; cases hpc)
      | (rename_i hpc _; rw [h1] at hpc; cases hpc)
      | (rename_i hpc _ _; rw [h1] at hpc; cases hpc)

theorem len_ptr_pos {relBuf : Bool} {cap : Nat} {h : List (Ev ι Int)} {s : St ι} (hr : Reach relBuf cap h s) :
    0 < s.mem.len .ptr := by
  induction hr with
  | init => simp [St.init, Mem.init]
  | tau _ st ih => have := len_ptr_mono st; omega
  | vis _ st ih => have := len_ptr_mono st; omega

theorem sim_reach {relBuf : Bool} {cap : Nat} (hc0 : 0 < cap) {h : List (Ev ι Int)} {s : St ι} (hr : Reach relBuf cap h s)
    (hb : relBuf = true ∨ s.mem.len .ptr = 1) : ∃ ct, Inv cap ct s ∧ WHist h (abs ct s) := by
  induction hr with
  | init junk =>
    refine ⟨fun _ => 0, .init _ _, ?_⟩
    have : abs (fun _ => 0) (St.init junk : St ι) = AState.init := by
      simp [abs, St.init, absO, absT, AState.init, tp, logB, lastB, Mem.init, lowered, Mem.lastv, elems]
    rw [this]; exact .init
  | @tau h s s' hr st ih =>
    have h1 := len_ptr_mono st
    have hpos := len_ptr_pos hr
    obtain ⟨ct, hi, hw⟩ := ih (by rcases hb with h | h; exact .inl h; right; omega)
    obtain ⟨ct', hi', hm⟩ := inv_step hc0 hi hb st
    refine ⟨ct', hi', ?_⟩
    rcases hm with ⟨_, e⟩ | hm
    · rw [e]; exact hw
    · exact .tau hw hm
  | @vis h s e s' hr st ih =>
    have h1 := len_ptr_mono st
    have hpos := len_ptr_pos hr
    obtain ⟨ct, hi, hw⟩ := ih (by rcases hb with h | h; exact .inl h; right; omega)
    obtain ⟨ct', hi', hm⟩ := inv_step hc0 hi hb st
    refine ⟨ct', hi', ?_⟩
    rcases hm with ⟨e, _⟩ | hm
    · cases e
    · exact .vis hw hm

end Verif.Weak
