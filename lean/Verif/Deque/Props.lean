import Verif.Deque.SimStep
import Verif.Deque.Count

/-!
Properties C01–C04 of the work-stealing deque (include/libfork/core/ext/deque.hpp).

In every theorem `Reach maxCap cap h s` says: starting from an empty deque of capacity `cap`, some interleaving of one
owner and the thieves `ι`, at the granularity of single atomic accesses, has produced the history `h` of calls and
returns and the internal state `s`. The constructor documents that `cap` is a power of two.
-/
namespace Verif.Deque
variable {ι V : Type} [DecidableEq ι]

def IsPow2 (c : Nat) : Prop := ∃ k, c = 2 ^ k

/-- C03. Every history of the deque can be explained by calls that take effect one at a time, between their invocation
and their response, on a list: `push` appends at the back, `pop` removes at the back, `steal` removes at the front. -/
theorem deque_linearizable {maxCap cap : Nat} (hc : IsPow2 cap) {h : List (Ev ι V)} {s : St ι V}
    (hr : Reach maxCap cap h s) : Linearizable h :=
  ⟨_, sim_reach hc hr none (wok_none s)⟩

/-- C01. No duplication and no invention: for every set `p` of values, at any time, no more values of this set have been
handed out by `pop` and `steal` than `push` has been called with (not counting pushes that threw). With `p` a single
value: a value is handed out at most as often as it was pushed. -/
theorem deque_no_dup_no_invention {maxCap cap : Nat} (hc : IsPow2 cap) {h : List (Ev ι V)} {s : St ι V}
    (hr : Reach maxCap cap h s) (p : V → Bool) : handedOut p h + pushesThrew p h ≤ pushesInvoked p h := by
  obtain ⟨L, b⟩ := bal_hist p (sim_reach hc hr none (wok_none s))
  have := b.bal
  omega

/-- C02. Nothing is lost: when nobody else is in a call, `pop` says "empty" exactly when everything pushed has been
handed out. -/
theorem deque_pop_empty_iff {maxCap cap : Nat} (hc : IsPow2 cap) {h : List (Ev ι V)} {s : St ι V} {r : ORet V}
    (hr : Reach maxCap cap (h ++ [.oinv .pop, .ores r]) s) (hq : Quiescent h) :
    (r = .none ↔ AllHandedOut h) ∧ (r = .none ∨ ∃ v, r = .got v) := by
  obtain ⟨a, ha⟩ := deque_linearizable hc hr
  rw [show h ++ [Ev.oinv OOp.pop, Ev.ores r] = (h ++ [.oinv .pop]) ++ [.ores r] by simp] at ha
  obtain ⟨b, b', hb, hs, _⟩ := ha.last
  obtain ⟨c, c', hc1, hs1, ht⟩ := hb.last
  have hbal := outstanding (fun _ => true) hc1 hq
  obtain ⟨_, hidle⟩ := rest_of_quiescent hc1 hq
  cases hs1 with
  | oinv _ =>
  cases hs with
  | ores hown =>
  have := solo_pop (a := { c with owner := .pend .pop }) hidle ht c.q (.inl ⟨rfl, rfl⟩)
  rw [hown] at this
  unfold AllHandedOut
  rcases this with ⟨h1, _⟩ | ⟨h1, h2⟩ | ⟨v, h1, q, h2⟩
  · cases h1
  · cases h1; rw [h2] at hbal; simpa using hbal
  · cases h1; rw [h2] at hbal; simp at hbal ⊢; omega

/-- C02. When nobody else is in a call, `steal` never says "lost", and it says "empty" exactly when everything pushed has
been handed out. -/
theorem deque_steal_empty_iff {maxCap cap : Nat} (hc : IsPow2 cap) {h : List (Ev ι V)} {s : St ι V} {i : ι} {r : SRet V}
    (hr : Reach maxCap cap (h ++ [.sinv i, .sres i r]) s) (hq : Quiescent h) :
    (r = .empty ↔ AllHandedOut h) ∧ r ≠ .lost := by
  obtain ⟨a, ha⟩ := deque_linearizable hc hr
  rw [show h ++ [Ev.sinv i, Ev.sres i r] = (h ++ [.sinv i]) ++ [.sres i r] by simp] at ha
  obtain ⟨b, b', hb, hs, _⟩ := ha.last
  obtain ⟨c, c', hc1, hs1, ht⟩ := hb.last
  have hbal := outstanding (fun _ => true) hc1 hq
  obtain ⟨hoi, hidle⟩ := rest_of_quiescent hc1 hq
  cases hs1 with
  | sinv _ =>
  cases hs with
  | sres hown =>
  have := solo_steal (a := { c with thief := setT c.thief i (.pend false) }) i hoi
    (fun j hj => by simpa [setT, hj] using hidle j) ht c.q (.inl ⟨by simp [setT], rfl⟩)
  rw [hown] at this
  unfold AllHandedOut
  rcases this with ⟨h1, _⟩ | ⟨h1, h2⟩ | ⟨v, h1, q, h2⟩
  · cases h1
  · cases h1; rw [h2] at hbal; simpa using hbal
  · cases h1; rw [h2] at hbal; simp at hbal ⊢; omega

/-- C02. When nobody else is in a call, `size` is the number of pushed items not handed out. -/
theorem deque_size_exact {maxCap cap : Nat} (hc : IsPow2 cap) {h : List (Ev ι V)} {s : St ι V} {r : ORet V}
    (hr : Reach maxCap cap (h ++ [.oinv .size, .ores r]) s) (hq : Quiescent h) :
    ∃ n, r = .size n ∧
      pushesInvoked (fun _ => true) h = handedOut (fun _ => true) h + pushesThrew (fun _ => true) h + n := by
  obtain ⟨a, ha⟩ := deque_linearizable hc hr
  rw [show h ++ [Ev.oinv OOp.size, Ev.ores r] = (h ++ [.oinv .size]) ++ [.ores r] by simp] at ha
  obtain ⟨b, b', hb, hs, _⟩ := ha.last
  obtain ⟨c, c', hc1, hs1, ht⟩ := hb.last
  have hbal := outstanding (fun _ => true) hc1 hq
  obtain ⟨_, hidle⟩ := rest_of_quiescent hc1 hq
  cases hs1 with
  | oinv _ =>
  cases hs with
  | ores hown =>
  have := solo_size (a := { c with owner := .pend .size }) hidle ht c.q.length (.inl ⟨rfl, rfl⟩)
  rw [hown] at this
  rcases this with ⟨h1, _⟩ | h1
  · cases h1
  · cases h1; exact ⟨_, rfl, by simpa using hbal⟩

/-! ### C02, progress: no call can get stuck or be delayed by the other threads. -/

/-- Accesses a call of the owner has still to perform, at most. -/
def oLeft : OPc V → Nat
  | .idle => 0 | .ret _ => 1
  | .push6 _ _ => 2 | .push5 _ _ _ => 3 | .push4 _ _ _ => 4 | .push3 _ _ _ _ => 5 | .push2 _ _ _ => 6
  | .push1 _ _ => 7 | .push0 _ => 8
  | .pop7 _ _ => 2 | .pop6 _ _ => 3 | .pop5 _ => 2 | .pop4 _ _ => 4 | .pop3 _ _ => 5 | .pop2 _ _ => 6 | .pop1 _ => 7
  | .pop0 => 8
  | .size1 _ => 2 | .size0 => 3

def tLeft : TPc V → Nat
  | .idle => 0 | .ret _ => 1 | .st4 _ _ => 2 | .st3 _ _ => 3 | .st2 _ => 4 | .st1 _ => 5 | .st0 => 6

/-- `Steps maxCap n m i s s'`: an execution from `s` to `s'` in which the owner takes `n` steps inside its current call
and thief `i` takes `m` steps inside its current call (invocations of new calls by these two are not allowed, so both
stay in the call they are in). The thread that moves is recognised by its program counter. -/
inductive Steps (maxCap : Nat) (i : ι) : Nat → Nat → St ι V → St ι V → Prop where
  | refl {s} : Steps maxCap i 0 0 s s
  | owner {n m s s' s'' e} : Steps maxCap i n m s s' → Step maxCap s' e s'' → s'.opc ≠ .idle → s''.opc ≠ s'.opc →
      Steps maxCap i (n + 1) m s s''
  | thief {n m s s' s'' e} : Steps maxCap i n m s s' → Step maxCap s' e s'' → s'.tpc i ≠ .idle →
      s''.tpc i ≠ s'.tpc i → Steps maxCap i n (m + 1) s s''
  | other {n m s s' s'' e} : Steps maxCap i n m s s' → Step maxCap s' e s'' → s''.opc = s'.opc →
      s''.tpc i = s'.tpc i → Steps maxCap i n m s s''

theorem step_left {maxCap : Nat} {s s' : St ι V} {e : Option (Ev ι V)} (hs : Step maxCap s e s') (i : ι) :
    (s.opc ≠ .idle → s'.opc ≠ s.opc → oLeft s'.opc < oLeft s.opc) ∧
    (s.tpc i ≠ .idle → s'.tpc i ≠ s.tpc i → tLeft (s'.tpc i) < tLeft (s.tpc i)) ∧
    (s'.opc = s.opc ∨ s'.tpc i = s.tpc i) := by
  cases hs
  case sinv j h | sret j r h | st0 j h | st1 j t h _ | st1empty j t h _ | st2 j t h | st3 j t b h | st4ok j t v h _ |
      st4fail j t v h _ =>
    refine ⟨fun _ h => absurd rfl h, fun h1 h2 => ?_, .inl rfl⟩
    by_cases hj : i = j
    · subst hj; simp [setT, h, tLeft] at h1 ⊢
    · exact absurd (by simp [setT, hj]) h2
  all_goals
    rename_i h
    refine ⟨fun h1 _ => ?_, fun _ h => absurd rfl h, .inr rfl⟩
    first
      | simp [h, oLeft] at h1 ⊢; done
      | (rename_i h' _; simp [h', oLeft] at h1 ⊢; done)

/-- C02, wait-freedom: whatever the other threads do, the owner finishes its call within 8 accesses (7 and the return)
and a thief within 6 (5 and the return). -/
theorem deque_wait_free {maxCap : Nat} {i : ι} {n m : Nat} {s s' : St ι V} (h : Steps maxCap i n m s s') :
    n ≤ 8 ∧ m ≤ 6 := by
  have key : n + oLeft s'.opc ≤ oLeft s.opc ∧ m + tLeft (s'.tpc i) ≤ tLeft (s.tpc i) := by
    induction h with
    | refl => omega
    | owner _ hs h1 h2 ih =>
      obtain ⟨a, b, c⟩ := step_left hs i
      have := a h1 h2
      rcases c with c | c
      · exact absurd c h2
      · rw [c]; omega
    | thief _ hs h1 h2 ih =>
      obtain ⟨a, b, c⟩ := step_left hs i
      have := b h1 h2
      rcases c with c | c
      · rw [c]; omega
      · exact absurd c h2
    | other _ _ h1 h2 ih => rw [h1, h2]; exact ih
  have h1 : oLeft s.opc ≤ 8 := by cases s.opc <;> simp [oLeft]
  have h2 : tLeft (s.tpc i) ≤ 6 := by cases s.tpc i <;> simp [tLeft]
  omega

/-- C02, no blocking: a thread inside a call can always take its next step. -/
theorem deque_never_blocks {maxCap : Nat} (s : St ι V) :
    (s.opc ≠ .idle → ∃ e s', Step maxCap s e s' ∧ s'.opc ≠ s.opc) ∧
    ∀ i, s.tpc i ≠ .idle → ∃ e s', Step maxCap s e s' ∧ s'.tpc i ≠ s.tpc i := by
  constructor
  · intro hne
    cases h : s.opc with
    | idle => exact absurd h hne
    | ret r => exact ⟨_, _, .oret h, by simp⟩
    | push0 v => exact ⟨_, _, .push0 h, by simp⟩
    | push1 v b => exact ⟨_, _, .push1 h, by simp⟩
    | push2 v b t =>
      by_cases hc : ((s.bufs s.cur).cap : Int) < (b - t) + 1
      · exact ⟨_, _, .push2full h hc, by simp⟩
      · exact ⟨_, _, .push2 h hc, by simp⟩
    | push3 v b t buf => exact ⟨_, _, .push3throw h, by simp⟩
    | push4 v b nb => exact ⟨_, _, .push4 h, by simp⟩
    | push5 v b buf => exact ⟨_, _, .push5 h, by simp⟩
    | push6 v b => exact ⟨_, _, .push6 h, by simp⟩
    | pop0 => exact ⟨_, _, .pop0 h, by simp⟩
    | pop1 b => exact ⟨_, _, .pop1 h, by simp⟩
    | pop2 b buf => exact ⟨_, _, .pop2 h, by simp⟩
    | pop3 b buf =>
      by_cases h1 : s.top < b
      · exact ⟨_, _, .pop3lt h h1, by simp⟩
      · by_cases h2 : s.top = b
        · exact ⟨_, _, .pop3eq h h2, by simp⟩
        · exact ⟨_, _, .pop3gt h (by omega), by simp⟩
    | pop4 b buf =>
      by_cases h2 : s.top = b
      · exact ⟨_, _, .pop4ok h h2, by simp⟩
      · exact ⟨_, _, .pop4fail h h2, by simp⟩
    | pop5 b => exact ⟨_, _, .pop5 h, by simp⟩
    | pop6 b buf => exact ⟨_, _, .pop6 h, by simp⟩
    | pop7 b buf => exact ⟨_, _, .pop7 h, by simp⟩
    | size0 => exact ⟨_, _, .size0 h, by simp⟩
    | size1 b => exact ⟨_, _, .size1 h, by simp⟩
  · intro i hne
    cases h : s.tpc i with
    | idle => exact absurd h hne
    | ret r => exact ⟨_, _, .sret h, by simp [setT]⟩
    | st0 => exact ⟨_, _, .st0 h, by simp [setT]⟩
    | st1 t =>
      by_cases hc : t < s.bottom
      · exact ⟨_, _, .st1 h hc, by simp [setT]⟩
      · exact ⟨_, _, .st1empty h hc, by simp [setT]⟩
    | st2 t => exact ⟨_, _, .st2 h, by simp [setT]⟩
    | st3 t b => exact ⟨_, _, .st3 h, by simp [setT]⟩
    | st4 t v =>
      by_cases hc : s.top = t
      · exact ⟨_, _, .st4ok h hc, by simp [setT]⟩
      · exact ⟨_, _, .st4fail h hc, by simp [setT]⟩

/-! ### C04, growth. -/

/-- The items in the deque, front first, as the memory holds them. -/
def St.contents (s : St ι V) : List V :=
  (List.range (s.bottom - s.top).toNat).map (fun (k : Nat) => (s.bufs s.cur).get (s.top + (k : Int)))

/-- C04. In every reachable state: no assertion has failed, the capacity is the initial one doubled some number of times
(so a power of two) and at least the number of items, and the vector of retired buffers has not outgrown the 64 slots
reserved for it, provided the allocator never delivers 2^63 or more slots. -/
theorem deque_capacity {maxCap cap : Nat} (hc : IsPow2 cap) (hm : maxCap < 2 ^ 63) (hcap : cap < 2 ^ 63)
    {h : List (Ev ι V)} {s : St ι V} (hr : Reach maxCap cap h s) :
    s.bad = false ∧ (∃ g, (s.bufs s.cur).cap = cap * 2 ^ g ∧ g ≤ 62) ∧ IsPow2 (s.bufs s.cur).cap ∧
      s.contents.length ≤ (s.bufs s.cur).cap ∧ s.garbage < 64 := by
  have hi := inv_reach hc hr
  have hcp : 0 < cap := by obtain ⟨k, rfl⟩ := hc; exact Nat.two_pow_pos k
  have hle : s.cap < 2 ^ 63 := by have := hi.capMax; omega
  have hcur : s.cur ≤ 62 := by
    by_contra hgt
    have h1 : 2 ^ 63 ≤ 2 ^ s.cur := Nat.pow_le_pow_right (by omega) (by omega)
    have h2 : 1 * 2 ^ s.cur ≤ cap * 2 ^ s.cur := Nat.mul_le_mul_right _ hcp
    rw [hi.capEq] at hle
    omega
  refine ⟨hi.good, ⟨s.cur, hi.capEq, hcur⟩, hi.pow, ?_, ?_⟩
  · have ho := hi.owner
    simp only [St.contents, List.length_map, List.length_range]
    unfold OInv at ho
    cases hp : s.opc <;> simp only [hp, St.full, St.cap] at ho ⊢ <;> omega
  · have := hi.garb
    have : inFlight s.opc ≤ 1 := by cases s.opc <;> simp [inFlight]
    omega

/-- C04. Replacing the buffer changes neither the number of items nor any item. -/
theorem deque_growth_preserves {maxCap cap : Nat} (hc : IsPow2 cap) {h : List (Ev ι V)} {s s' : St ι V}
    {e : Option (Ev ι V)} (hr : Reach maxCap cap h s) (hs : Step maxCap s e s') (hg : s'.cur ≠ s.cur) :
    s'.contents = s.contents ∧ (s'.bufs s'.cur).cap = 2 * (s.bufs s.cur).cap := by
  have hi := inv_reach hc hr
  have ho := hi.owner
  cases hs <;> try exact absurd rfl hg
  rename_i v b nb hp
  simp only [OInv, hp, St.full] at ho
  obtain ⟨hf, hb, hn, hcap, hit⟩ := ho
  refine ⟨?_, hcap⟩
  unfold St.contents
  apply List.map_congr_left
  intro k hk
  rw [List.mem_range] at hk
  dsimp only at hk ⊢
  exact hit _ (by omega) (by omega)

/-- C04. A thief whose CAS succeeds returns the front item, even if it read it from a buffer that has been replaced in the
meantime. -/
theorem deque_stale_buffer_ok {maxCap cap : Nat} (hc : IsPow2 cap) {h : List (Ev ι V)} {s s' : St ι V} {i : ι}
    (hr : Reach maxCap cap h s) (hs : Step maxCap s none s') {v : V} (hb : s.tpc i ≠ .ret (.got v))
    (hg : s'.tpc i = .ret (.got v)) : (s.bufs s.cur).get s.top = v := by
  have hi := inv_reach hc hr
  have ht := hi.thief i
  cases hs
  case st4ok j t u hp heq =>
    by_cases hj : i = j
    · subst hj
      simp [setT] at hg
      subst hg
      simp only [TInv, hp] at ht
      rw [heq]
      exact (ht.2.2.2 heq.symm).symm
    · simp [setT, hj] at hg; exact absurd hg hb
  case st0 j hp | st1 j t hp _ | st1empty j t hp _ | st2 j t hp | st3 j t b hp | st4fail j t u hp _ =>
    by_cases hj : i = j
    · subst hj; simp [setT] at hg
    · simp [setT, hj] at hg; exact absurd hg hb
  all_goals exact absurd hg hb

/-- C04. A push whose allocation fails changes nothing. -/
theorem deque_throw_unchanged {maxCap : Nat} {s s' : St ι V} {v : V} (hs : Step maxCap s none s')
    (hb : s.opc ≠ .ret (.threw v)) (hg : s'.opc = .ret (.threw v)) :
    s' = { s with opc := .ret (.threw v) } := by
  cases hs <;> simp only [reduceCtorEq, OPc.ret.injEq, ORet.threw.injEq] at hg
  all_goals first
    | (subst hg; rfl)
    | exact absurd hg hb

/-! ### A concrete run meeting the hypotheses: capacity 1, `push(5)`; a thief reads the buffer; `push(6)` grows the buffer
under the thief; the thief's CAS succeeds with 5; the owner pops 6; then the deque is empty. -/

namespace Example

def b0 : Nat → Buf Nat := fun _ => { cap := 1, slot := fun _ => 0 }

/-- The history up to the last two calls. -/
def hist : List (Ev (Fin 2) Nat) :=
  [.oinv (.push 5), .ores .pushed, .sinv 0, .oinv (.push 6), .ores .pushed, .sres 0 (.got 5), .oinv .pop, .ores (.got 6)]

theorem run : ∃ s : St (Fin 2) Nat, Reach 8 1 hist s ∧ s.opc = .idle ∧ (∀ i, s.tpc i = .idle) ∧ s.cur = 1 ∧
    s.top = 2 ∧ s.bottom = 2 := by
  have r := Reach.init (ι := Fin 2) (maxCap := 8) (cap := 1) b0 rfl
  replace r := r.vis (.oinvPush 5 rfl)
  replace r := r.tau (.push0 rfl)
  replace r := r.tau (.push1 rfl)
  replace r := r.tau (.push2 rfl (by decide))
  replace r := r.tau (.push5 rfl)
  replace r := r.tau (.push6 rfl)
  replace r := r.vis (.oret rfl)
  replace r := r.vis (.sinv (i := 0) rfl)
  replace r := r.tau (.st0 (i := 0) rfl)
  replace r := r.tau (.st1 (i := 0) rfl (by decide))
  replace r := r.tau (.st2 (i := 0) rfl)
  replace r := r.vis (.oinvPush 6 rfl)
  replace r := r.tau (.push0 rfl)
  replace r := r.tau (.push1 rfl)
  replace r := r.tau (.push2full rfl (by decide))
  replace r := r.tau (.push3 (fun _ => 77) rfl (by decide))
  replace r := r.tau (.push4 rfl)
  replace r := r.tau (.push5 rfl)
  replace r := r.tau (.push6 rfl)
  replace r := r.vis (.oret rfl)
  replace r := r.tau (.st3 (i := 0) rfl)
  replace r := r.tau (.st4ok (i := 0) rfl rfl)
  replace r := r.vis (.sret (i := 0) rfl)
  replace r := r.vis (.oinvPop rfl)
  replace r := r.tau (.pop0 rfl)
  replace r := r.tau (.pop1 rfl)
  replace r := r.tau (.pop2 rfl)
  replace r := r.tau (.pop3eq rfl rfl)
  replace r := r.tau (.pop4ok rfl rfl)
  replace r := r.tau (.pop6 rfl)
  replace r := r.tau (.pop7 rfl)
  replace r := r.vis (.oret rfl)
  refine ⟨_, r, rfl, fun i => ?_, rfl, rfl, rfl⟩
  simp only [setT, St.init]
  split <;> rfl

example : Quiescent hist ∧ AllHandedOut hist ∧ IsPow2 1 ∧ handedOut (fun v => v == 6) hist = 1 :=
  ⟨⟨rfl, fun i => by revert i; decide⟩, rfl, ⟨0, rfl⟩, rfl⟩

/-- `deque_pop_empty_iff` applies to the next `pop`. -/
example : ∃ s : St (Fin 2) Nat, Reach 8 1 (hist ++ [.oinv .pop, .ores .none]) s := by
  obtain ⟨s, r, h1, h2, h3, h4, h5⟩ := run
  replace r := r.vis (.oinvPop h1)
  replace r := r.tau (.pop0 rfl)
  replace r := r.tau (.pop1 rfl)
  replace r := r.tau (.pop2 rfl)
  replace r := r.tau (.pop3gt rfl (by simp [h4, h5]))
  replace r := r.tau (.pop5 rfl)
  replace r := r.vis (.oret rfl)
  exact ⟨_, by simpa using r⟩

/-- `deque_steal_empty_iff` applies to the next `steal`. -/
example : ∃ s : St (Fin 2) Nat, Reach 8 1 (hist ++ [.sinv 1, .sres 1 .empty]) s := by
  obtain ⟨s, r, h1, h2, h3, h4, h5⟩ := run
  replace r := r.vis (.sinv (h2 1))
  replace r := r.tau (.st0 (i := 1) rfl)
  replace r := r.tau (.st1empty (i := 1) rfl (by simp [h4, h5]))
  replace r := r.vis (.sret (i := 1) rfl)
  exact ⟨_, by simpa using r⟩

/-- `deque_size_exact` applies to a call of `size`. -/
example : ∃ s : St (Fin 2) Nat, Reach 8 1 (hist ++ [.oinv .size, .ores (.size 0)]) s := by
  obtain ⟨s, r, h1, h2, h3, h4, h5⟩ := run
  replace r := r.vis (.oinvSize h1)
  replace r := r.tau (.size0 rfl)
  replace r := r.tau (.size1 rfl)
  replace r := r.vis (.oret rfl)
  have : (max (s.bottom - s.top) 0).toNat = 0 := by rw [h4, h5]; rfl
  exact ⟨_, by simpa [this] using r⟩

/-- A history with a `lost` answer exists, and the specification does not allow it without a competitor: both thieves
read the same top, one wins. -/
example : ∃ s : St (Fin 2) Nat, Reach 8 1
    [.oinv (.push 5), .ores .pushed, .sinv 0, .sinv 1, .sres 1 (.got 5), .sres 0 .lost] s := by
  have r := Reach.init (ι := Fin 2) (maxCap := 8) (cap := 1) b0 rfl
  replace r := r.vis (.oinvPush 5 rfl)
  replace r := r.tau (.push0 rfl)
  replace r := r.tau (.push1 rfl)
  replace r := r.tau (.push2 rfl (by decide))
  replace r := r.tau (.push5 rfl)
  replace r := r.tau (.push6 rfl)
  replace r := r.vis (.oret rfl)
  replace r := r.vis (.sinv (i := 0) rfl)
  replace r := r.vis (.sinv (i := 1) rfl)
  replace r := r.tau (.st0 (i := 0) rfl)
  replace r := r.tau (.st0 (i := 1) rfl)
  replace r := r.tau (.st1 (i := 0) rfl (by decide))
  replace r := r.tau (.st1 (i := 1) rfl (by decide))
  replace r := r.tau (.st2 (i := 0) rfl)
  replace r := r.tau (.st2 (i := 1) rfl)
  replace r := r.tau (.st3 (i := 0) rfl)
  replace r := r.tau (.st3 (i := 1) rfl)
  replace r := r.tau (.st4ok (i := 1) rfl rfl)
  replace r := r.tau (.st4fail (i := 0) rfl (by decide))
  replace r := r.vis (.sret (i := 1) rfl)
  replace r := r.vis (.sret (i := 0) rfl)
  exact ⟨_, r⟩

/-- The specification refuses a duplicated item: not every history is linearizable. -/
example : ¬ Linearizable ([.oinv (.push 5), .ores .pushed, .sinv 0, .sres 0 (.got 5), .sinv 1, .sres 1 (.got 5)] :
    List (Ev (Fin 2) Nat)) := by
  rintro ⟨a, ha⟩
  obtain ⟨L, b⟩ := bal_hist (fun _ => true) ha
  have := b.bal
  simp [pushesInvoked, handedOut, pushesThrew] at this
  omega

end Example

end Verif.Deque
