import Verif.Scan.Ser
import Verif.Algo.ScanProps
import Verif.Par.Ser

/-! Run by one thread, the tasks do what Verif.Algo.ScanModel says, for the answers `rdy` that the `sync_outside` forks have given. -/
namespace Verif.Scan
open Verif.Algo (Cmd Out Loc Prog SOp Ival Run riseP riseEnd fallImplP fallP scanP upd)
open Verif.Mem (put)

section
variable {L V : Type} [DecidableEq L]

theorem put_upd (m : L → V) (l : L) (v : V) : put m l v = upd m l v := rfl

theorem ex_rd {w : L} {r : Par.Rd L V Empty} {k : C L V} {ks m v m'} (h : Ex (rd w r k) ks m v m') :
    ∃ u, r.eval m = .ok u ∧ Ex k ks (upd m w u) v m' := by
  induction r with
  | done x =>
    rcases x with e | u
    · exact nomatch e
    · cases h with
      | set h => exact ⟨u, rfl, h⟩
  | ask l g ih =>
    cases h with
    | get h => exact ih _ h

theorem ex_lin (p : Cmd L V Empty) {k : C L V} {ks m v m'} (h : Ex (lin p k) ks m v m') : ∃ m1, Run p m .ok m1 ∧ Ex k ks m1 v m' := by
  induction p generalizing k m with
  | halt o =>
    cases o with
    | ok => exact ⟨m, .halt, h⟩
    | exn e => exact nomatch e
    | ub => cases h
  | atom w n rs f =>
    obtain ⟨u, h1, h2⟩ := ex_rd h
    rw [Par.rdOf_eval] at h1
    exact ⟨_, .atomOk h1, h2⟩
  | seq p q ih1 ih2 =>
    obtain ⟨m1, h1, h2⟩ := ih1 h
    obtain ⟨m2, h3, h4⟩ := ih2 h2
    exact ⟨m2, .seqOk h1 h3, h4⟩
  | par p q => cases h

theorem ex_ret {r : Nat} {ks} {m : L → V} {v m'} (h : Ex (.ret r) ks m v m') : v = r ∧ m' = m := by cases h; exact ⟨rfl, rfl⟩

end

variable {V : Type}

/-- Answers from the two halves of the tree. -/
noncomputable def mix (path : List Bool) (b : Bool) (f g : List Bool → Bool) (q : List Bool) : Bool :=
  open Classical in if q = path then b else if (false :: path) <:+ q then f q else g q

theorem mix_here (path b f g) : mix path b f g path = b := by simp [mix]

theorem suffix_ne {path q : List Bool} {c : Bool} (h : (c :: path) <:+ q) : q ≠ path := by
  rintro rfl
  have := h.length_le
  simp at this
  omega

theorem mix_left {path b f g q} (h : (false :: path) <:+ q) : mix path b f g q = f q := by
  simp only [mix, suffix_ne h, if_false, h, if_true]

theorem mix_right {path b f g q} (h : (true :: path) <:+ q) : mix path b f g q = g q := by
  have : ¬ (false :: path) <:+ q := by
    rintro ⟨a, ha⟩
    obtain ⟨a', ha'⟩ := h
    rw [← ha'] at ha
    have := List.append_inj' ha rfl
    simp at this
  simp only [mix, suffix_ne h, if_false, this]

theorem suffix_up {path q : List Bool} {c : Bool} (h : (c :: path) <:+ q) : path <:+ q := (List.suffix_cons c path).trans h

theorem riseEnd_congr {f g : List Bool → Bool} (n : Nat) (path : List Bool) (beg size : Nat) (h : ∀ q, path <:+ q → f q = g q) :
    riseEnd f n path beg size = riseEnd g n path beg size := by
  induction size using Nat.strongRecOn generalizing path beg with
  | ind size ih =>
    rw [riseEnd, riseEnd.eq_def g]
    split
    · rfl
    split
    · rfl
    rw [ih (size / 2) (by omega) (false :: path) beg (fun q hq => h q (suffix_up hq)),
      ih (size - size / 2) (by omega) (true :: path) (beg + size / 2) (fun q hq => h q (suffix_up hq)), h path List.suffix_rfl]


theorem riseP_congr (pr : V → V) (op : V → V → V) {f g : List Bool → Bool} (n : Nat) (o : SOp) (iv : Ival) (path : List Bool) (beg size out : Nat) (h : ∀ q, path <:+ q → f q = g q) :
    (riseP pr op f n o iv path beg size out : Prog V Empty) = riseP pr op g n o iv path beg size out := by
  induction size using Nat.strongRecOn generalizing o iv path beg out with
  | ind size ih =>
    rw [riseP, riseP.eq_def pr op g]
    split
    · rfl
    split
    · rfl
    split
    · rfl
    have h1 := fun o => ih (size / 2) (by omega) o iv.l (false :: path) beg out (fun q hq => h q (suffix_up hq))
    have h2 := fun o => ih (size - size / 2) (by omega) o iv.r (true :: path) (beg + size / 2) (out + size / 2) (fun q hq => h q (suffix_up hq))
    simp only [h1, h2, h path List.suffix_rfl, riseEnd_congr n (false :: path) beg (size / 2) (fun q hq => h q (suffix_up hq))]

variable (pr : V → V) (op : V → V → V)

theorem ex_rise (n : Nat) (o : SOp) (iv : Ival) (path : List Bool) (beg size out : Nat) {m v m'} (h : Ex (rise pr op n o iv path beg size out) [] m v m') :
    ∃ rdy, Run (riseP pr op rdy n o iv path beg size out : Prog V Empty) m .ok m' ∧ (o = .scan → v = riseEnd rdy n path beg size) := by
  induction size using Nat.strongRecOn generalizing o iv path beg out m v m' with
  | ind size ih =>
    rw [rise] at h
    split at h
    · cases h
    rename_i h0
    split at h
    · rename_i h1
      obtain ⟨m1, h2, h3⟩ := ex_lin _ h
      obtain ⟨rfl, rfl⟩ := ex_ret h3
      refine ⟨fun _ => false, ?_, ?_⟩
      · rw [riseP, if_neg h0, if_pos h1]; exact h2
      · rintro rfl; rw [riseEnd, if_pos h1, if_pos rfl]
    rename_i h1
    split at h
    · cases h
    rename_i h2
    have comb : ∀ {r ks m v m'}, Ex (combine op iv size out r) ks m v m' → v = r ∧ Run (if iv = .lhs ∨ iv = .mid then
          .atom2 (.cell (out + size - 1)) (.cell (out + size / 2 - 1)) (.cell (out + size - 1)) (fun a b => .ok (op a b)) else .halt .ok : Prog V Empty) m .ok m' := by
      intro r ks m v m' h
      obtain ⟨m1, h2, h3⟩ := ex_lin _ h
      obtain ⟨rfl, rfl⟩ := ex_ret h3
      exact ⟨rfl, h2⟩
    have wrap : ∀ {b} {f g : List Bool → Bool} {m m1 m2 o o'}, Run (riseP pr op f n o iv.l (false :: path) beg (size / 2) out : Prog V Empty) m .ok m1 →
        Run (riseP pr op g n o' iv.r (true :: path) (beg + size / 2) (size - size / 2) (out + size / 2) : Prog V Empty) m1 .ok m2 →
        Run (riseP pr op (mix path b f g) n o iv.l (false :: path) beg (size / 2) out : Prog V Empty) m .ok m1 ∧
        Run (riseP pr op (mix path b f g) n o' iv.r (true :: path) (beg + size / 2) (size - size / 2) (out + size / 2) : Prog V Empty) m1 .ok m2 := by
      intro b f g m m1 m2 o o' r1 r2
      rw [riseP_congr pr op (f := mix path b f g) (g := f) n _ _ _ _ _ _ (fun q => mix_left), riseP_congr pr op (f := mix path b f g) (g := g) n _ _ _ _ _ _ (fun q => mix_right)]
      exact ⟨r1, r2⟩
    have endL : ∀ b f g, riseEnd (mix path b f g) n (false :: path) beg (size / 2) = riseEnd f n (false :: path) beg (size / 2) := fun b f g =>
      riseEnd_congr n _ _ _ (fun q => mix_left)
    have endR : ∀ b f g, riseEnd (mix path b f g) n (true :: path) (beg + size / 2) (size - size / 2) = riseEnd g n (true :: path) (beg + size / 2) (size - size / 2) := fun b f g =>
      riseEnd_congr n _ _ _ (fun q => mix_right)
    cases o with
    | scan =>
      simp only at h
      cases h with
      | yes e1 e2 =>
        obtain ⟨f, r1, hv⟩ := ih _ (by omega) _ _ _ _ _ e1
        replace hv := hv rfl
        subst hv
        simp only at e2
        split at e2
        · rename_i hfull
          cases e2 with
          | call e2 e3 =>
            obtain ⟨g, r2, hv⟩ := ih _ (by omega) _ _ _ _ _ e2
            obtain ⟨rfl, rfl⟩ := ex_ret e3
            obtain ⟨w1, w2⟩ := wrap (b := true) r1 r2
            refine ⟨mix path true f g, ?_, fun _ => ?_⟩
            · rw [riseP, if_neg h0, if_neg h1, if_neg h2]
              simp only [mix_here, endL, hfull, and_self, if_true]
              exact .seqOk w1 w2
            · rw [riseEnd, if_neg h1, if_neg h2]
              simp only [mix_here, endL, hfull, and_self, if_true, endR]
              exact hv rfl
        · rename_i hfull
          cases e2 with
          | call e2 e3 =>
            obtain ⟨g, r2, -⟩ := ih _ (by omega) _ _ _ _ _ e2
            cases e3 with
            | join e3 =>
              obtain ⟨rfl, r3⟩ := comb e3
              obtain ⟨w1, w2⟩ := wrap (b := true) r1 r2
              refine ⟨mix path true f g, ?_, fun _ => ?_⟩
              · rw [riseP, if_neg h0, if_neg h1, if_neg h2]
                simp only [mix_here, endL, hfull, and_false, if_true, if_false]
                exact .seqOk (.seqOk w1 w2) r3
              · rw [riseEnd.eq_def (mix path true f g), if_neg h1, if_neg h2]
                simp only [endL, hfull, and_false, if_false]
      | no e1 e2 =>
        obtain ⟨f, r1, hv⟩ := ih _ (by omega) _ _ _ _ _ e1
        replace hv := hv rfl
        subst hv
        cases e2 with
        | call e2 e3 =>
          obtain ⟨g, r2, -⟩ := ih _ (by omega) _ _ _ _ _ e2
          cases e3 with
          | join e3 =>
            obtain ⟨rfl, r3⟩ := comb e3
            obtain ⟨w1, w2⟩ := wrap (b := false) r1 r2
            refine ⟨mix path false f g, ?_, fun _ => ?_⟩
            · rw [riseP, if_neg h0, if_neg h1, if_neg h2]
              simp only [mix_here, Bool.false_eq_true, false_and, if_false]
              exact .seqOk (.par w1 w2 .ok) r3
            · rw [riseEnd.eq_def (mix path false f g), if_neg h1, if_neg h2]
              simp only [mix_here, endL, Bool.false_eq_true, false_and, if_false]
    | fold =>
      simp only at h
      cases h with
      | fork e1 e2 =>
        obtain ⟨f, r1, -⟩ := ih _ (by omega) _ _ _ _ _ e1
        cases e2 with
        | call e2 e3 =>
          obtain ⟨g, r2, -⟩ := ih _ (by omega) _ _ _ _ _ e2
          cases e3 with
          | join e3 =>
            obtain ⟨rfl, r3⟩ := comb e3
            obtain ⟨w1, w2⟩ := wrap (b := false) r1 r2
            refine ⟨mix path false f g, ?_, fun h => nomatch h⟩
            rw [riseP, if_neg h0, if_neg h1, if_neg h2]
            exact .seqOk (.par w1 w2 .ok) r3

theorem ex_fallImpl (n : Nat) (iv : Ival) (path : List Bool) (beg size out : Nat) {m v m'} (h : Ex (fallImpl pr op n iv path beg size out) [] m v m') :
    Run (fallImplP pr op n iv path beg size out : Prog V Empty) m .ok m' := by
  induction size using Nat.strongRecOn generalizing iv path beg out m v m' with
  | ind size ih =>
    rw [fallImpl] at h
    rw [fallImplP]
    split at h
    · cases h
    rename_i h0
    rw [if_neg h0]
    split at h
    · cases h
    rename_i h1
    rw [if_neg h1]
    split at h
    · rename_i h2
      rw [if_pos h2]
      obtain ⟨m1, h2, h3⟩ := ex_lin _ h
      obtain ⟨-, rfl⟩ := ex_ret h3
      exact h2
    rename_i h2
    rw [if_neg h2]
    split at h
    · cases h
    rename_i h3
    rw [if_neg h3]
    obtain ⟨m1, r1, h⟩ := ex_lin _ h
    refine .seqOk r1 ?_
    cases h with
    | fork e1 e2 =>
      cases e2 with
      | call e2 e3 =>
        cases e3 with
        | join e3 =>
          obtain ⟨-, rfl⟩ := ex_ret e3
          exact .par (ih _ (by omega) _ _ _ _ e1) (ih _ (by omega) _ _ _ _ e2) .ok

theorem ex_fall (n : Nat) (iv : Ival) (path : List Bool) (beg size out se : Nat) {m v m'} (h : Ex (fall pr op n iv path beg size out se) [] m v m') :
    Run (fallP pr op n iv path beg size out se : Prog V Empty) m .ok m' := by
  induction size using Nat.strongRecOn generalizing iv path beg out m v m' with
  | ind size ih =>
    rw [fall] at h
    rw [fallP]
    split at h
    · rename_i h0
      rw [dif_pos h0]
      split at h
      · cases h
      rename_i h1
      rw [dif_neg h1]
      simp only at h
      split at h
      · rename_i h2
        rw [dif_pos h2]
        cases h with
        | fork e1 e2 =>
          cases e2 with
          | call e2 e3 =>
            cases e3 with
            | join e3 =>
              obtain ⟨-, rfl⟩ := ex_ret e3
              exact .par (ih _ (by omega) _ _ _ _ e1) (ex_fallImpl pr op _ _ _ _ _ _ e2) .ok
      rename_i h2
      rw [dif_neg h2]
      split at h
      · rename_i h3
        rw [if_pos h3]
        cases h with
        | call e2 e3 =>
          obtain ⟨-, rfl⟩ := ex_ret e3
          exact ex_fallImpl pr op _ _ _ _ _ _ e2
      · rename_i h3
        rw [if_neg h3]
        cases h with
        | call e2 e3 =>
          obtain ⟨-, rfl⟩ := ex_ret e3
          exact ih _ (by omega) _ _ _ _ e2
    · cases h

theorem ex_scan (n : Nat) (path : List Bool) (src dst len : Nat) (hlen : 0 < len) {m v m'} (h : Ex (scan pr op n path src dst len) [] m v m') :
    v = 0 ∧ ∃ rdy m1, Run (riseP pr op rdy n .scan .all path src len dst : Prog V Empty) m .ok m1 ∧
      Run (if riseEnd rdy n path src len ≠ src + len then fallP pr op n .all path src len dst (riseEnd rdy n path src len) else .halt .ok : Prog V Empty) m1 .ok m' := by
  unfold scan at h
  rw [if_neg (by omega)] at h
  cases h with
  | call e1 e2 =>
    obtain ⟨rdy, r1, hv⟩ := ex_rise pr op _ _ _ _ _ _ _ e1
    replace hv := hv rfl
    subst hv
    dsimp only at e2
    split at e2
    · rename_i h1
      split at e2
      · cases e2 with
        | call e2 e3 =>
          obtain ⟨rfl, rfl⟩ := ex_ret e3
          exact ⟨rfl, rdy, _, r1, by rw [if_pos h1]; exact ex_fall pr op _ _ _ _ _ _ _ e2⟩
      · cases e2
    · rename_i h1
      obtain ⟨rfl, rfl⟩ := ex_ret e2
      exact ⟨rfl, rdy, _, r1, by rw [if_neg h1]; exact .halt⟩

/-- What `scan` computes, run by one thread. -/
theorem scan_post (assoc : ∀ a b c, op (op a b) c = op a (op b c)) {n : Nat} (hn : 0 < n) (path : List Bool) {src dst len : Nat} (ha : Algo.SameOrApart src dst len)
    {m v m'} (h : Ex (scan pr op n path src dst len) [] m v m') :
    v = 0 ∧ (∀ i < len, m' (.cell (dst + i)) = ((Algo.cells m (src + 1) i).map pr).foldl op (pr (m (.cell src)))) ∧
      ∀ c, ¬ (dst ≤ c ∧ c < dst + len) → m' (.cell c) = m (.cell c) := by
  by_cases hlen : len = 0
  · subst hlen
    unfold scan at h
    rw [if_pos rfl] at h
    obtain ⟨rfl, rfl⟩ := ex_ret h
    exact ⟨rfl, fun i hi => by omega, fun _ _ => rfl⟩
  obtain ⟨hv, rdy, m1, r1, r2⟩ := ex_scan pr op n path src dst len (by omega) h
  have hal := ha.idx
  have frise := Algo.riseP_foot (E := Empty) pr op hal rdy n .scan .all path 0 len (by omega) (fun h => by cases h)
  have hpost := Algo.riseScan_post (E := Empty) (pr := pr) (op := op) (m0 := m) assoc hal rdy n hn .all path 0 len (by omega)
    (by omega) (fun h => by cases h) (fun _ => rfl) (m := m) (m' := m1) (fun _ _ _ => rfl) (fun h => by cases h) r1
  simp only [Nat.add_zero, Nat.zero_add] at frise hpost
  obtain ⟨-, se, e1, e2, e3, e4, e5⟩ := hpost
  have key : Algo.Scanned pr op src dst m m' 0 len ∧ ∀ c, ¬ (dst ≤ c ∧ c < dst + len) → m' (.cell c) = m1 (.cell c) := by
    rw [e1] at r2
    by_cases hx : se = len
    · rw [if_neg (by omega)] at r2
      cases r2
      exact ⟨e4 hx, fun _ _ => rfl⟩
    · rw [if_pos (by omega)] at r2
      have hp := (e5 (by omega)).1
      have := Algo.fallP_post (E := Empty) (pr := pr) (op := op) (m0 := m) assoc hal n hn .all path 0 len se (by omega) (by omega) (by omega)
        hp (fun h => by cases h) (by simpa using r2)
      have ff := Algo.fallP_foot (E := Empty) pr op hal n .all path 0 len se (by omega) (by omega) (by omega)
      simp only [Nat.add_zero, Nat.zero_add] at ff this
      exact ⟨this.2, fun c hc => ff.keep r2 (by simp only [Algo.Ival.excl]; omega)⟩
  refine ⟨hv, fun i hi => ?_, fun c hc => ?_⟩
  · rw [key.1 i (by omega) hi, Algo.G_eq_foldl]
  · rw [key.2 c hc, frise.keep r1 (by omega)]

end Verif.Scan
