import Verif.WholeM.Props
import Verif.Par.Props

/-! C64 for the parallel algorithms: `sync_wait(pool, lf::fold, ...)` and so on, from the call to its return. -/
namespace Verif.WholeM
open Verif.Runtime (Res Ev)
open Verif.LazyPool (Cfg St)
open Verif.Exn (Ends)
open Verif.Mem (ctl subs ReachAny Runs Mono)
open Verif.Whole (Caller Actor)
open Verif.Algo (Cmd Run Writes NoConflict)
open Verif.Par (T Dat RunsP task vals)

variable {L V E : Type} [DecidableEq L] {c : Cfg} {may : Dat V E → Prop} {K : Nat} {dep : Nat → Nat → Prop}

/-! ### They end -/

abbrev EndsP (y : T L V E) (n : Nat) : Prop := ∀ rs es, Ends (ctl Par.body) (fun _ => True) y rs es n

omit [DecidableEq L] in
theorem ends_fail (e : Dat V E) {n : Nat} (hn : 1 ≤ n) : EndsP (.fail e : T L V E) n := fun _ _ => .throw (e := e) rfl hn

omit [DecidableEq L] in
theorem ends_rd (w : L) (k : List (Cmd L V E)) {n : Nat} (hk : EndsP (Par.next k) n) : ∀ (i : Nat) (ls : Fin i → L) (f : (Fin i → V) → Except E V),
    EndsP (Par.rd w (Par.rdOf i ls f) k) (n + i + 1)
  | 0, ls, f => by
    intro rs es
    simp only [Par.rdOf]
    cases f (Fin.elim0 ·) with
    | ok v => exact .switch (d := 0) (k := Par.next k) (h := fun _ => Par.next k) (n := n) rfl (hk _ _) (fun _ _ => hk _ _) (by omega)
    | error e => exact ends_fail _ (by omega) _ _
  | i + 1, ls, f => by
    intro rs es
    refine Ends.switch (d := 0) (n := n + i + 1) rfl (ends_fail _ (by omega) _ _) (fun e _ => ?_) (by omega)
    cases e with
    | val v => exact ends_rd w k hk i _ _ rs es
    | exn e => exact ends_fail _ (by omega) _ _
    | ub => exact ends_fail _ (by omega) _ _

/-- How long a program can take. -/
def cost : Cmd L V E → Nat
  | .halt _ => 1
  | .atom _ n _ _ => n + 1
  | .seq p q => cost p + cost q
  | .par p q => cost p + cost q + 6

omit [DecidableEq L] in
theorem ends_go (p : Cmd L V E) : ∀ (k : List (Cmd L V E)) {n : Nat}, EndsP (Par.next k) n → 1 ≤ n → EndsP (Par.go p k (Par.next k)) (n + cost p) := by
  induction p with
  | halt o =>
    intro k n hk hn rs es
    cases o with
    | ok => exact (hk rs es).mono (by omega)
    | exn e => exact ends_fail _ (by omega) _ _
    | ub => exact ends_fail _ (by omega) _ _
  | atom w i ls f =>
    intro k n hk hn rs es
    exact (ends_rd w k hk i ls f rs es).mono (by simp only [cost]; omega)
  | seq p q ihp ihq =>
    intro k n hk hn rs es
    have h1 := ihq k hk hn
    exact (ihp (q :: k) h1 (by omega) rs es).mono (by simp only [cost]; omega)
  | par p q ihp ihq =>
    intro k n hk hn rs es
    have ret : EndsP (Par.next [] : T L V E) 1 := fun _ _ => .ret (v := ()) rfl (Nat.le_refl _)
    have hp : EndsP (task p) (1 + cost p) := ihp [] ret (Nat.le_refl _)
    have hq : EndsP (task q) (1 + cost q) := ihq [] ret (Nat.le_refl _)
    have hj : EndsP (.atJoin k) (n + 1) := fun rs es => by
      refine Ends.join (k := fun _ => Par.next k) (h := fun e _ => T.fail e) (n := n) rfl (fun _ => hk _ _) (fun e _ => ?_) (by omega)
      exact ends_fail _ hn _ _
    have hs : ∀ e, EndsP (.stash e : T L V E) (n + 1) := fun e rs es => by
      refine Ends.join (k := fun _ => T.fail e) (h := fun e' _ => T.fail e') (n := n) rfl (fun _ => ends_fail _ hn _ _) (fun e _ => ?_) (by omega)
      exact ends_fail _ hn _ _
    have hf : EndsP (.forked q k) (n + 3 + cost q) := fun rs es =>
      .call (c := task q) (k := fun _ => .atJoin k) (h := .stash) (m := 1 + cost q) (n := n + 1) rfl (hq _ _) (fun _ _ => hj _ _) (fun _ _ => hj _ _)
        (fun e _ => hs e _ _) (by omega)
    exact .fork (c := task p) (k := fun _ => .forked q k) (h := .fail) (m := 1 + cost p) (n := n + 3 + cost q) rfl (hp _ _) (fun _ _ _ => hf _ _)
      (fun e _ => ends_fail _ (by omega) _ _) (by simp only [cost]; omega)

omit [DecidableEq L] in
theorem ends_task (p : Cmd L V E) : ∃ n, Ends (ctl Par.body) (fun _ => True) (task p) [] [] n :=
  ⟨_, ends_go p [] (n := 1) (fun _ _ => .ret (v := ()) rfl (Nat.le_refl _)) (Nat.le_refl _) [] []⟩

omit [DecidableEq L] in
theorem no_switch (x : T L V E) (d : Nat) (k : T L V E) (h : Dat V E → T L V E) : Par.body x ≠ .switch d k h := by
  cases x <;> simp [Par.body]

/-! ### Several calls -/

/-- The programs of the calls have no races, nor do those of calls that are not ordered conflict. -/
structure Fit (K : Nat) (dep : Nat → Nat → Prop) (p : Nat → Cmd L V E) : Prop where
  free : ∀ i, i < K → Algo.RaceFree (p i)
  apart : ∀ i j, i < K → j < K → i ≠ j → ¬ dep i j → ¬ dep j i → NoConflict (p i) (p j)
  noub : ∀ i, i < K → ∀ m m', ¬ Run (p i) m .ub m'

variable {p : Nat → Cmd L V E} {m : L → V}

theorem together_ok (hp : Fit K dep p) (O : T L V E → Prop) (y : T L V E) (h : Together K (fun i => task (p i)) dep O y) : Par.ok O y := by
  obtain ⟨i, hi, rfl, h1⟩ := h
  refine ⟨p i, rfl, hp.free i hi, fun y' hy => ?_⟩
  obtain ⟨j, hj, hne, h2, h3, rfl⟩ := h1 y' hy
  exact ⟨p j, rfl, hp.free j hj, hp.apart i j hi hj (fun e => hne e.symm) h2 h3⟩

theorem raceFree (hp : Fit K dep p) : Mem.RaceFree Par.body may (Together K (fun i => task (p i)) dep) (vals m : L → Dat V E) :=
  Mem.C62_footprint Par.disc (fun O y ⟨i, _, e, _⟩ => by rw [e]; exact (Par.next_pend _).1) (Par.foot_ok may)
    (fun O y h => Par.ok_roots O y (together_ok hp O y h))

theorem runs_programs (hp : Fit K dep p) {l : List (Nat × Except (Dat V E) Unit)} : ∀ {m : L → V} {M' : L → Dat V E}, (∀ i ∈ l.map Prod.fst, i < K) →
    Runs Par.body may (vals m) (l.map fun q => (task (p q.1), q.2)) M' →
    ∃ m', M' = vals m' ∧ RunsP may m (l.map fun q => (p q.1, q.2)) m' := by
  induction l with
  | nil => intro m M' _ h; cases h; exact ⟨m, rfl, .nil⟩
  | cons q l ih =>
    intro m M' hl h
    cases h with
    | cons h1 h2 =>
      have hq := hl q.1 (by simp)
      obtain ⟨m1, rfl, h3, h4⟩ := Par.ser_task (hp.free _ hq) (hp.noub _ hq) h1
      obtain ⟨m', e, h5⟩ := ih (fun i hi => hl i (by simp only [List.map_cons, List.mem_cons]; exact .inr hi)) h2
      exact ⟨m', e, .cons h3 h4 h5⟩

/-- **C64.** `K` calls of `sync_wait` with algorithms (programs of Verif.Algo.Lang), on a pool that sleeps and wakes as it likes, in any fair schedule: if
unordered calls do not conflict, then from some time on all are over, and memory and results are those of the programs run one after another by one
thread, in an order that respects that of the calls. -/
theorem C64_programs (hc : c.Ok) (hN : 0 < c.N) (hp : Fit K dep p) {r : Fair.Run (system c Par.body may K (fun i => task (p i)) dep (vals m))}
    (hf : r.Fair) (few : ∀ t, LazyPool.Few c (r.st t).x.l) {t : Nat} (hcall : ∀ i, i < K → (r.st t).x.caller i ≠ .before) :
    ∃ t', t ≤ t' ∧ ∀ u, t' ≤ u → ∃ (l : List (Nat × Except (Dat V E) Unit)) (m' : L → V), (l.map Prod.fst).Nodup ∧ (∀ i, i ∈ l.map Prod.fst ↔ i < K) ∧
      (∀ q ∈ l, (r.st u).x.caller q.1 = .back q.2) ∧ l.Pairwise (fun q q' => ¬ dep q.1 q'.1) ∧ (r.st u).m = vals m' ∧
      RunsP may m (l.map fun q => (p q.1, q.2)) m' := by
  obtain ⟨t', h1, h2⟩ := C64_completes hc Par.disc Par.pend_le hN (fun x d k h e => absurd e (no_switch x d k h)) (fun i _ => (Par.next_pend _).1)
    (raceFree hp) (fun i _ => ends_task _) hf few hcall
  refine ⟨t', h1, fun u hu => ?_⟩
  obtain ⟨l, a1, a2, a3, a4, a5⟩ := h2 u hu
  obtain ⟨m', e, a6⟩ := runs_programs hp (fun i hi => (a2 i).1 hi) a5
  exact ⟨l, m', a1, a2, a3, a4, e, a6⟩

/-! ### One call -/

/-- One call, over: what C63 needs. -/
theorem single {q : Cmd L V E} (hc : c.Ok) (hq : Algo.RaceFree q) {s : Y (T L V E) Unit (Dat V E) L}
    (h : Reach c Par.body may 1 (fun _ => task q) dep (vals m) s) {r : Except (Dat V E) Unit} (hb : s.x.caller 0 = .back r) :
    ReachAny Par.body Par.pend may Par.ok (vals m) s.mem ∧ ∃ f, subs s.mem.x.c.log = [(f, task q)] ∧ Ev.done f r ∈ s.mem.x.c.log := by
  refine ⟨reach_mem (ok := Par.ok) hc Par.disc Par.pend_le (fun i _ => (Par.next_pend _).1) (fun O i hi hO => ⟨q, rfl, hq, fun c' hc' => ?_⟩) h, ?_⟩
  · obtain ⟨j, hj, hne, _⟩ := hO c' hc'
    omega
  · obtain ⟨fr, js, hcl⟩ := calls h
    have e : js = [0] := by
      have h0 : 0 ∈ js := (hcl.mem 0).2 ⟨by omega, by rw [hb]; rfl⟩
      match js, hcl.nodup, hcl.mem with
      | [i], _, hm => have := ((hm i).1 (by simp)).1; have : i = 0 := by omega
                      rw [this]
      | i :: j :: l, hn, hm =>
        have h1 := ((hm i).1 (by simp)).1
        have h2 := ((hm j).1 (by simp)).1
        have : i = j := by omega
        simp [this] at hn
      | [], _, hm => exact absurd ((hm 0).2 ⟨by omega, by rw [hb]; rfl⟩) (by simp)
    refine ⟨fr 0, ?_, hcl.back 0 r hb⟩
    show subs s.x.x.c.log = _
    rw [hcl.subs, e]; rfl

theorem single_back {q : Cmd L V E} (hc : c.Ok) (hN : 0 < c.N) {r : Fair.Run (system c Par.body may 1 (fun _ => task q) dep (vals m))}
    (hf : r.Fair) (few : ∀ t, LazyPool.Few c (r.st t).x.l) {t : Nat} (hcall : (r.st t).x.caller 0 ≠ .before) :
    ∃ t' v, t ≤ t' ∧ ∀ u, t' ≤ u → (r.st u).x.caller 0 = .back v ∧ Reach c Par.body may 1 (fun _ => task q) dep (vals m) (r.st u) := by
  obtain ⟨t', v, h1, h2⟩ := C64_returns hc Par.disc Par.pend_le hN (fun x d k h e => absurd e (no_switch x d k h)) (fun i _ => (Par.next_pend _).1)
    (fun i _ => ends_task _) hf few hcall
  exact ⟨t', v, h1, fun u hu => ⟨back_stays r h2 u hu, run_reach r few u⟩⟩

variable {g : V → Except E V} {n src dst len : Nat} {q : Algo.Prog V E} {M : Par.MemOf V}

/-- **C64, `lf::map`.** `sync_wait(pool, lf::map, ...)` comes back, in every fair schedule; if it returns, output `i` is the function of input `i`, for
every `i`; if it throws, then what the function threw on one of the inputs, unless an allocation failed; and nothing but the output was changed. -/
theorem C64_map (hc : c.Ok) (hN : 0 < c.N) (hn : 0 < n) (ha : Algo.SameOrApart src dst len) (hq : Algo.IsMap g n src dst len q)
    {r : Fair.Run (system c Par.body may 1 (fun _ => task q) dep (vals M))} (hf : r.Fair) (few : ∀ t, LazyPool.Few c (r.st t).x.l) {t : Nat}
    (hcall : (r.st t).x.caller 0 ≠ .before) :
    ∃ t' v, t ≤ t' ∧ ∀ u, t' ≤ u → (r.st u).x.caller 0 = .back v ∧ ∃ m' : Par.MemOf V, (r.st u).m = vals m' ∧
      (v = .ok () → ∀ i < len, g (M (.cell (src + i))) = .ok (m' (.cell (dst + i)))) ∧
      (∀ d, v = .error d → (∃ e, may e) ∨ ∃ e, d = .exn e ∧ ∃ i < len, g (M (.cell (src + i))) = .error e) ∧
      ∀ l, (∀ i < len, l ≠ .cell (dst + i)) → m' l = M l := by
  obtain ⟨t', v, h1, h2⟩ := single_back hc hN hf few hcall
  refine ⟨t', v, h1, fun u hu => ⟨(h2 u hu).1, ?_⟩⟩
  obtain ⟨h3, f, h4, h5⟩ := single hc (Algo.isMap_all hn ha hq).1 (h2 u hu).2 (h2 u hu).1
  exact Par.C63_map hn ha hq h3 h4 h5

/-- **C64, `lf::for_each`.** The same; if it returns, the function was applied exactly once to each element. -/
theorem C64_for_each {head : Nat} (hc : c.Ok) (hN : 0 < c.N) (hn : 0 < n) (hq : Algo.IsForEach g n head len q)
    {r : Fair.Run (system c Par.body may 1 (fun _ => task q) dep (vals M))} (hf : r.Fair) (few : ∀ t, LazyPool.Few c (r.st t).x.l) {t : Nat}
    (hcall : (r.st t).x.caller 0 ≠ .before) :
    ∃ t' v, t ≤ t' ∧ ∀ u, t' ≤ u → (r.st u).x.caller 0 = .back v ∧ ∃ m' : Par.MemOf V, (r.st u).m = vals m' ∧
      (v = .ok () → ∀ i < len, g (M (.cell (head + i))) = .ok (m' (.cell (head + i)))) ∧
      (∀ d, v = .error d → (∃ e, may e) ∨ ∃ e, d = .exn e ∧ ∃ i < len, g (M (.cell (head + i))) = .error e) ∧
      ∀ l, (∀ i < len, l ≠ .cell (head + i)) → m' l = M l :=
  C64_map hc hN hn (Or.inl rfl) (Algo.isForEach_isMap hq) hf few hcall

variable {proj : V → Except E V} {bop : V → V → Except E V} {head : Nat}

/-- **C64, `lf::fold`.** `sync_wait(pool, lf::fold, ...)` comes back; if it returns, then the value of some bracketing of the projected elements, in order;
if it throws, then what the projection of an element or the combination of two adjacent sub-ranges threw, unless an allocation failed; no
element is changed. -/
theorem C64_fold (hc : c.Ok) (hN : 0 < c.N) (hn : 0 < n) (hlen : 0 < len) (hq : Algo.foldTop proj bop n head len = some q)
    {r : Fair.Run (system c Par.body may 1 (fun _ => task q) dep (vals M))} (hf : r.Fair) (few : ∀ t, LazyPool.Few c (r.st t).x.l) {t : Nat}
    (hcall : (r.st t).x.caller 0 ≠ .before) :
    ∃ t' v, t ≤ t' ∧ ∀ u, t' ≤ u → (r.st u).x.caller 0 = .back v ∧ ∃ m' : Par.MemOf V, (r.st u).m = vals m' ∧
      (v = .ok () → Algo.Bracketed proj bop (Algo.cells M head len) (m' .res)) ∧
      (∀ d, v = .error d → (∃ e, may e) ∨ ∃ e, d = .exn e ∧ Algo.Thrown proj bop (Algo.cells M head len) e) ∧ ∀ a, m' (.cell a) = M (.cell a) := by
  obtain ⟨t', v, h1, h2⟩ := single_back hc hN hf few hcall
  refine ⟨t', v, h1, fun u hu => ⟨(h2 u hu).1, ?_⟩⟩
  obtain ⟨h3, f, h4, h5⟩ := single hc (Par.fold_all hn hlen hq).2.1 (h2 u hu).2 (h2 u hu).1
  exact Par.C63_fold hn hlen hq h3 h4 h5

/-- **C64, `lf::fold`** with an associative operator, if nothing throws: `sync_wait` returns, and what it returns is the left fold. -/
theorem C64_fold_assoc (pr : V → V) (op : V → V → V) (assoc : ∀ a b c, op (op a b) c = op a (op b c)) (hc : c.Ok) (hN : 0 < c.N) (hn : 0 < n)
    (hlen : 0 < len) (hq : Algo.foldTop (fun x => .ok (pr x)) (fun a b => .ok (op a b)) n head len = some q)
    {r : Fair.Run (system c Par.body (fun _ : Dat V E => False) 1 (fun _ => task q) dep (vals M))} (hf : r.Fair)
    (few : ∀ t, LazyPool.Few c (r.st t).x.l) {t : Nat} (hcall : (r.st t).x.caller 0 ≠ .before) :
    ∃ t', t ≤ t' ∧ ∀ u, t' ≤ u → (r.st u).x.caller 0 = .back (.ok ()) ∧ ∃ m' : Par.MemOf V, (r.st u).m = vals m' ∧
      m' .res = ((Algo.cells M (head + 1) (len - 1)).map pr).foldl op (pr (M (.cell head))) ∧ ∀ a, m' (.cell a) = M (.cell a) := by
  obtain ⟨t', v, h1, h2⟩ := single_back hc hN hf few hcall
  refine ⟨t', h1, fun u hu => ?_⟩
  obtain ⟨h3, f, h4, h5⟩ := single hc (Par.fold_all hn hlen hq).2.1 (h2 u hu).2 (h2 u hu).1
  obtain ⟨m', h6, h7, h8⟩ := Par.C63_fold_assoc pr op assoc hn hlen hq h3 h4 h5
  subst h7
  exact ⟨(h2 u hu).1, m', h6, h8⟩

end Verif.WholeM
