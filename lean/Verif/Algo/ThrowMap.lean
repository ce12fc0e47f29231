import Verif.Algo.ThrowProps

/-!
C27, C28 with task frames: `map` and `for_each` as programs of the language of `Algo/ThrowModel.lean`, in which every task has a frame that
holds a pending exception and `final_suspend` asserts that none is left. The user's functions are called through `just`, which rethrows
(just.hpp:84-92), asynchronous or not; so an exception leaves the loop at once, ends the task, is captured in the frame of the parent
(promise.hpp:318-329, or `stash_exception`, map.hpp:74-78) and rethrown by the join.
-/
namespace Verif.Algo.Throw
variable {V E : Type}

/-- map.hpp:60-62. -/
def mapLoop (g : V → Except E V) (head out : Nat) : Nat → Prog V E
  | 0 => .halt .ok
  | k + 1 => .seq (atom1 (.cell out) (.cell head) fun v => thrown (g v)) (mapLoop g (head + 1) (out + 1) k)

/-- map.hpp:45-82. -/
def mapN (g : V → Except E V) (n head out len : Nat) : Prog V E :=
  if n = 0 then .halt .ub
  else if len = 0 then .halt .ok
  else if len ≤ n then mapLoop g head out len
  else .par (.frame none (mapN g n head out (len / 2))) (.frame none (mapN g n (head + len / 2) (out + len / 2) (len - len / 2)))
termination_by len
decreasing_by all_goals omega

/-- map.hpp:93-127. -/
def mapOne (g : V → Except E V) (head out len : Nat) : Prog V E :=
  if len = 0 then .halt .ok
  else if len = 1 then atom1 (.cell out) (.cell head) fun v => thrown (g v)
  else .par (.frame none (mapOne g head out (len / 2))) (.frame none (mapOne g (head + len / 2) (out + len / 2) (len - len / 2)))
termination_by len
decreasing_by all_goals omega

/-- for_each.hpp:59-61. -/
def forLoop (g : V → Except E V) (head : Nat) : Nat → Prog V E
  | 0 => .halt .ok
  | k + 1 => .seq (atom1 (.cell head) (.cell head) fun v => thrown (g v)) (forLoop g (head + 1) k)

/-- for_each.hpp:44-80. -/
def forN (g : V → Except E V) (n head len : Nat) : Prog V E :=
  if n = 0 then .halt .ub
  else if len = 0 then .halt .ok
  else if len ≤ n then forLoop g head len
  else .par (.frame none (forN g n head (len / 2))) (.frame none (forN g n (head + len / 2) (len - len / 2)))
termination_by len
decreasing_by all_goals omega

/-- for_each.hpp:89-118. -/
def forOne (g : V → Except E V) (head len : Nat) : Prog V E :=
  if len = 0 then .halt .ok
  else if len = 1 then atom1 (.cell head) (.cell head) fun v => thrown (g v)
  else .par (.frame none (forOne g head (len / 2))) (.frame none (forOne g (head + len / 2) (len - len / 2)))
termination_by len
decreasing_by all_goals omega

/-- A call of one of the overloads of `lf::map`; the range overloads call the others through `just` (map.hpp:137-172). -/
inductive IsMap (g : V → Except E V) (n src dst len : Nat) : Prog V E → Prop where
  | chunked : IsMap g n src dst len (.frame none (mapN g n src dst len))
  | unchunked : IsMap g n src dst len (.frame none (mapOne g src dst len))
  | range : IsMap g n src dst len (.frame none (.frame none (if n = 1 then mapOne g src dst len else mapN g n src dst len)))
  | rangeOne : IsMap g n src dst len (.frame none (.frame none (mapOne g src dst len)))

/-- A call of one of the overloads of `lf::for_each` (for_each.hpp:130-155). -/
inductive IsForEach (g : V → Except E V) (n head len : Nat) : Prog V E → Prop where
  | chunked : IsForEach g n head len (.frame none (forN g n head len))
  | unchunked : IsForEach g n head len (.frame none (forOne g head len))
  | range : IsForEach g n head len (.frame none (.frame none (if n = 1 then forOne g head len else forN g n head len)))
  | rangeOne : IsForEach g n head len (.frame none (.frame none (forOne g head len)))

/-- The two programs are at the same point; every exception is passed on at once, none is pending in a frame that is not about to
join. -/
inductive SimX : Prog V E → Algo.Prog V E → Prop where
  | halt {o} : o ≠ .ub → SimX (.halt o) (.halt o)
  | atom {w k rs f f'} : (∀ v, f v = thrown (f' v)) → SimX (.atom w k rs f) (.atom w k rs f')
  | seq {p q c d} : SimX p c → SimX q d → SimX (.seq p q) (.seq c d)
  | par {p q c d} : SimX p c → SimX q d → SimX (.par p q) (.par c d)
  | frame {p c} : SimX p c → SimX (.frame none p) c

theorem thrown_ok {x : Except E V} {v : V} (h : thrown x = .ok v) : x = .ok v := by cases x <;> cases h; rfl
theorem thrown_err {x : Except E V} {e : E} (h : thrown x = .error (e, false)) : x = .error e := by cases x <;> cases h; rfl
theorem thrown_cap {x : Except E V} {e : E} (h : thrown x = .error (e, true)) : False := by cases x <;> cases h

theorem joinOut_conv {o1 o2 o : Out E} (h : JoinOut none o1 o2 o) (u1 : o1 ≠ .ub) (u2 : o2 ≠ .ub) : Algo.JoinOut o1 o2 o ∧ o ≠ .ub := by
  cases h with
  | ubL => exact absurd rfl u1
  | ubR => exact absurd rfl u2
  | ok => exact ⟨.ok, nofun⟩
  | left ho =>
    refine ⟨?_, nofun⟩
    cases o2
    · exact .left _
    · exact .both1 _ _
    · exact absurd rfl ho
  | right ho =>
    refine ⟨?_, nofun⟩
    cases o1
    · exact .right _
    · exact .both2 _ _
    · exact absurd rfl ho

theorem simX_step {p : Prog V E} {s p' s'} (h : Step p s p' s') (hp : s.pd = none) {c : Algo.Prog V E} (hs : SimX p c) :
    s'.pd = none ∧ ∃ c', Algo.Steps c s.m c' s'.m ∧ SimX p' c' := by
  induction h generalizing c with
  | atomOk h => cases hs with
    | atom hf => rw [hf] at h; exact ⟨hp, _, .head (.atomOk (thrown_ok h)) .refl, .halt nofun⟩
  | atomErr h => cases hs with
    | atom hf => rw [hf] at h; exact ⟨hp, _, .head (.atomErr (thrown_err h)) .refl, .halt nofun⟩
  | atomCap _ h => cases hs with
    | atom hf => rw [hf] at h; exact (thrown_cap h).elim
  | seqStep _ ih => cases hs with
    | seq h1 h2 => obtain ⟨i1, c', i2, i3⟩ := ih hp h1; exact ⟨i1, _, seq_steps i2, .seq i3 h2⟩
  | seqOk => cases hs with | seq h1 h2 => cases h1; exact ⟨hp, _, .head .seqOk .refl, h2⟩
  | seqAbort ho => cases hs with
    | seq h1 h2 => cases h1 with | halt hu => exact ⟨hp, _, .head (.seqAbort ho) .refl, .halt hu⟩
  | parL _ ih => cases hs with
    | par h1 h2 =>
      cases h1 with
      | frame h1 => obtain ⟨i1, c', i2, i3⟩ := ih rfl h1; dsimp only at i1; subst i1; exact ⟨hp, _, parL_steps i2, .par (.frame i3) h2⟩
  | parR _ ih => cases hs with
    | par h1 h2 =>
      cases h2 with
      | frame h2 => obtain ⟨i1, c', i2, i3⟩ := ih rfl h2; dsimp only at i1; subst i1; exact ⟨hp, _, parR_steps i2, .par h1 (.frame i3)⟩
  | parEndL => cases hs with
    | par h1 h2 => cases h1 with | frame h1 => exact ⟨hp, _, .refl, .par h1 h2⟩
  | parEndR => cases hs with
    | par h1 h2 => cases h2 with | frame h2 => exact ⟨hp, _, .refl, .par h1 h2⟩
  | parJoin hj =>
    rw [hp] at hj
    cases hs with
    | par h1 h2 =>
      cases h1 with
      | @halt a u1 =>
        cases h2 with
        | @halt b u2 =>
          have := joinOut_conv hj u1 u2
          exact ⟨rfl, _, .head (.parJoin this.1) .refl, .halt this.2⟩
  | sforkStep => cases hs
  | sforkOk => cases hs
  | sforkUb => cases hs
  | sforkThrow => cases hs
  | sforkCap => cases hs
  | frameStep _ ih => cases hs with
    | frame h1 => obtain ⟨i1, c', i2, i3⟩ := ih rfl h1; dsimp only at i1; subst i1; exact ⟨hp, _, i2, .frame i3⟩
  | frameEnd => cases hs with
    | frame h1 => exact ⟨hp, _, .refl, h1⟩

theorem simX_steps {p : Prog V E} {s p' s'} (h : Steps p s p' s') (hp : s.pd = none) {c : Algo.Prog V E} (hs : SimX p c) :
    ∃ c', Algo.Steps c s.m c' s'.m ∧ SimX p' c' := by
  induction h generalizing c with
  | refl => exact ⟨c, .refl, hs⟩
  | head st t ih =>
    obtain ⟨h1, c1, h2, h3⟩ := simX_step st hp hs
    obtain ⟨c2, h4, h5⟩ := ih h1 h3
    exact ⟨c2, h2.trans h4, h5⟩

theorem simX_mapLoop (g : V → Except E V) (k : Nat) : ∀ head out, SimX (mapLoop g head out k) (Algo.mapLoop g head out k) := by
  induction k with
  | zero => exact fun _ _ => .halt nofun
  | succ k ih => exact fun _ _ => .seq (.atom fun _ => rfl) (ih _ _)

theorem simX_mapN (g : V → Except E V) {n : Nat} (hn : 0 < n) (len : Nat) :
    ∀ head out, SimX (mapN g n head out len) (Algo.mapN g n head out len) := by
  induction len using Nat.strongRecOn with
  | ind len ih =>
    intro head out
    unfold mapN Algo.mapN
    have h0 : ¬ n = 0 := by omega
    rw [if_neg h0, if_neg h0]
    split
    · exact .halt nofun
    · split
      · exact simX_mapLoop ..
      · exact .par (.frame (ih _ (by omega) _ _)) (.frame (ih _ (by omega) _ _))

theorem simX_mapOne (g : V → Except E V) (len : Nat) : ∀ head out, SimX (mapOne g head out len) (Algo.mapOne g head out len) := by
  induction len using Nat.strongRecOn with
  | ind len ih =>
    intro head out
    unfold mapOne Algo.mapOne
    split
    · exact .halt nofun
    · split
      · exact .atom fun _ => rfl
      · exact .par (.frame (ih _ (by omega) _ _)) (.frame (ih _ (by omega) _ _))

theorem simX_forLoop (g : V → Except E V) (k : Nat) : ∀ head, SimX (forLoop g head k) (Algo.forLoop g head k) := by
  induction k with
  | zero => exact fun _ => .halt nofun
  | succ k ih => exact fun _ => .seq (.atom fun _ => rfl) (ih _)

theorem simX_forN (g : V → Except E V) {n : Nat} (hn : 0 < n) (len : Nat) : ∀ head, SimX (forN g n head len) (Algo.forN g n head len) := by
  induction len using Nat.strongRecOn with
  | ind len ih =>
    intro head
    unfold forN Algo.forN
    have h0 : ¬ n = 0 := by omega
    rw [if_neg h0, if_neg h0]
    split
    · exact .halt nofun
    · split
      · exact simX_forLoop ..
      · exact .par (.frame (ih _ (by omega) _)) (.frame (ih _ (by omega) _))

theorem simX_forOne (g : V → Except E V) (len : Nat) : ∀ head, SimX (forOne g head len) (Algo.forOne g head len) := by
  induction len using Nat.strongRecOn with
  | ind len ih =>
    intro head
    unfold forOne Algo.forOne
    split
    · exact .halt nofun
    · split
      · exact .atom fun _ => rfl
      · exact .par (.frame (ih _ (by omega) _)) (.frame (ih _ (by omega) _))

theorem isMap_simX {g : V → Except E V} {n src dst len : Nat} (hn : 0 < n) {p : Prog V E} (h : IsMap g n src dst len p) :
    ∃ c, Algo.IsMap g n src dst len c ∧ SimX p c := by
  cases h with
  | chunked => exact ⟨_, .chunked, .frame (simX_mapN g hn ..)⟩
  | unchunked => exact ⟨_, .unchunked, .frame (simX_mapOne g ..)⟩
  | range =>
    split
    · exact ⟨_, .unchunked, .frame (.frame (simX_mapOne g ..))⟩
    · exact ⟨_, .chunked, .frame (.frame (simX_mapN g hn ..))⟩
  | rangeOne => exact ⟨_, .unchunked, .frame (.frame (simX_mapOne g ..))⟩

theorem isForEach_simX {g : V → Except E V} {n head len : Nat} (hn : 0 < n) {p : Prog V E} (h : IsForEach g n head len p) :
    ∃ c, Algo.IsForEach g n head len c ∧ SimX p c := by
  cases h with
  | chunked => exact ⟨_, .chunked, .frame (simX_forN g hn ..)⟩
  | unchunked => exact ⟨_, .unchunked, .frame (simX_forOne g ..)⟩
  | range =>
    split
    · exact ⟨_, .unchunked, .frame (.frame (simX_forOne g ..))⟩
    · exact ⟨_, .chunked, .frame (.frame (simX_forN g hn ..))⟩
  | rangeOne => exact ⟨_, .unchunked, .frame (.frame (simX_forOne g ..))⟩

/-- **C27 with task frames.** Every execution of `map` ends without a failed assertion; it throws exactly if the function throws on some
input element, and then an exception thrown on an input element; an output is untouched or right, all are right if it does not throw,
and nothing else changes. -/
theorem map_frames {g : V → Except E V} {n src dst len : Nat} (hn : 0 < n) (ha : SameOrApart src dst len)
    {p : Prog V E} (hp : IsMap g n src dst len p) {m : Mem Loc V} {o : Out E} {s : St Loc V E} (h : Steps p (start m) (.halt o) s) :
    o ≠ .ub ∧ ((∃ e, o = .exn e) ↔ ∃ i < len, ∃ e, g (m (.cell (src + i))) = .error e) ∧
    (∀ e, o = .exn e → ∃ i < len, g (m (.cell (src + i))) = .error e) ∧
    (∀ i < len, g (m (.cell (src + i))) = .ok (s.m (.cell (dst + i))) ∨ o ≠ .ok ∧ s.m (.cell (dst + i)) = m (.cell (dst + i))) ∧
    ∀ l, (∀ i < len, l ≠ .cell (dst + i)) → s.m l = m l := by
  obtain ⟨c, hc, hs⟩ := isMap_simX hn hp
  obtain ⟨c', h1, h2⟩ := simX_steps h rfl hs
  cases h2
  have e := map_exceptions hn ha hc h1
  refine ⟨e.2.2.2.2, e.1, e.2.1, fun i hi => ?_, e.2.2.2.1⟩
  by_cases ho : o = .ok
  · refine .inl ((map_correct hn ha hc ?_ h1).2.1 i hi)
    intro j hj
    cases hg : g (m (.cell (src + j))) with
    | ok v => exact ⟨v, hg⟩
    | error x =>
      obtain ⟨y, hy⟩ := e.1.2 ⟨j, hj, x, hg⟩
      rw [ho] at hy; cases hy
  · exact (e.2.2.1 i hi).imp id fun h => ⟨ho, h⟩

/-- **C28 with task frames.** -/
theorem for_each_frames {g : V → Except E V} {n head len : Nat} (hn : 0 < n)
    {p : Prog V E} (hp : IsForEach g n head len p) {m : Mem Loc V} {o : Out E} {s : St Loc V E} (h : Steps p (start m) (.halt o) s) :
    o ≠ .ub ∧ ((∃ e, o = .exn e) ↔ ∃ i < len, ∃ e, g (m (.cell (head + i))) = .error e) ∧
    (∀ e, o = .exn e → ∃ i < len, g (m (.cell (head + i))) = .error e) ∧
    (∀ i < len, g (m (.cell (head + i))) = .ok (s.m (.cell (head + i))) ∨ o ≠ .ok ∧ s.m (.cell (head + i)) = m (.cell (head + i))) ∧
    ∀ l, (∀ i < len, l ≠ .cell (head + i)) → s.m l = m l := by
  obtain ⟨c, hc, hs⟩ := isForEach_simX hn hp
  obtain ⟨c', h1, h2⟩ := simX_steps h rfl hs
  cases h2
  have e := for_each_exceptions hn hc h1
  refine ⟨e.2.2.2.2, e.1, e.2.1, fun i hi => ?_, e.2.2.2.1⟩
  by_cases ho : o = .ok
  · refine .inl ((for_each_exactly_once hn hc ?_ h1).2.1 i hi)
    intro j hj
    cases hg : g (m (.cell (head + j))) with
    | ok v => exact ⟨v, hg⟩
    | error x =>
      obtain ⟨y, hy⟩ := e.1.2 ⟨j, hj, x, hg⟩
      rw [ho] at hy; cases hy
  · exact (e.2.2.1 i hi).imp id fun h => ⟨ho, h⟩

/-- A function that throws on odd numbers. -/
def evenOnly (x : Nat) : Except Nat Nat := if x % 2 = 0 then .ok (x / 2) else .error x

/-- Two elements, the second one odd: the second task throws, the first one writes, the join rethrows. -/
example : ∃ s, Steps (.frame none (mapOne evenOnly 0 2 2)) (start fun l => match l with | .cell a => 4 + a | _ => 0) (.halt (.exn 5)) s := by
  unfold mapOne
  unfold mapOne
  refine ⟨_, .head (.frameStep (.parR (.atomErr (e := 5) rfl))) (.head (.frameStep .parEndR) (.head (.frameStep (.parL (.atomOk (v := 2) rfl)))
    (.head (.frameStep .parEndL) (.head (.frameStep (.parJoin (.right nofun))) (.head .frameEnd .refl)))))⟩

end Verif.Algo.Throw
