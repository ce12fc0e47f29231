import Verif.Runtime.Props

/-!
C10 fails at 65535 forks in one scope: a task forks 65535 children and each time it is stolen by the other of two workers. The
join counter reaches zero when the last child reports, although the task itself is still running: it is resumed a second time.
With at most 65534 forks per scope this cannot happen (`reach_of_bounded`, `history_legal`).
-/
namespace Verif.Runtime.Counter

/-- `for (j = 0; j < 65535; ++j) fork(leaf)(); join; return`. -/
inductive Prog where
  | loop (j : Nat)
  | leaf
  | fin

def body : Prog → Act Prog Unit
  | .loop j => if j < 65535 then .fork .leaf (.loop (j + 1)) else .join fun _ => .fin
  | .leaf => .ret ()
  | .fin => .ret ()

def pend : Prog → Nat
  | .loop j => j
  | _ => 0

theorem disc : Disc body pend where
  ret s v h := by
    cases s <;> simp only [body] at h <;> try rfl
    split at h <;> cases h
  fork s c k h := by
    cases s <;> simp only [body] at h <;> try cases h
    split at h <;> cases h
    exact ⟨rfl, rfl⟩
  call s c k h := by
    cases s <;> simp only [body] at h <;> try cases h
    split at h <;> cases h
  join s k h := by
    cases s <;> simp only [body] at h <;> try cases h
    split at h <;> cases h
    exact fun _ => rfl
  switch s d k h := by
    cases s <;> simp only [body] at h <;> try cases h
    split at h <;> cases h

abbrev S := State Prog Unit
abbrev RA (s : S) := ReachAny body pend s

/-- What always holds: the workers `w`, `v`, the frame 0 alone on its stack, the worker `v` with an empty stack of its own. -/
structure Base (w v : Nat) (s : S) : Prop where
  ne : w ≠ v
  pos : 0 < s.nf
  alv : s.al (s.wk v) = []
  nv : s.wk v ≠ s.stk 0
  nwv : s.wk w ≠ s.wk v
  fresh : ∀ i, s.ns ≤ i → s.al (2 * i) = [] ∧ s.wk w ≠ 2 * i ∧ s.wk v ≠ 2 * i ∧ s.stk 0 ≠ 2 * i

/-- After `j` rounds: `w` runs the task, `v` is idle. -/
structure Round (j w v : Nat) (s : S) : Prop extends Base w v s where
  fst : j = 0 ∨ s.wk w ≠ s.stk 0
  st : (s.fr 0).st = .loop j
  steal : (s.fr 0).steal = j
  join : (s.fr 0).join + j = 65535
  slots : (s.fr 0).slots = List.replicate j (some ())
  al0 : s.al (s.stk 0) = [0]
  pcw : s.pc w = .run 0
  pcv : s.pc v = .idle
  qw : s.q w = []
  alw : s.wk w = s.stk 0 ∨ s.al (s.wk w) = []
  log : status 0 s.log = .running w

/-- The child `n` has been forked. -/
structure Forked (j n w v : Nat) (s : S) : Prop extends Base w v s where
  n0 : n ≠ 0
  fst : j = 0 ∨ s.wk w ≠ s.stk 0
  st : (s.fr 0).st = .loop (j + 1)
  steal : (s.fr 0).steal = j
  join : (s.fr 0).join + j = 65535
  slots : (s.fr 0).slots = List.replicate j (some ()) ++ [none]
  stn : (s.fr n).st = .leaf
  stealn : (s.fr n).steal = 0
  joinn : (s.fr n).join = maxU16
  link : s.link n = .fork 0 j
  stk : s.stk n = s.wk w
  al0 : 0 ∈ s.al (s.stk 0)
  alw : s.al (s.wk w) = n :: (if s.wk w = s.stk 0 then [0] else [])
  al0' : s.wk w ≠ s.stk 0 → s.al (s.stk 0) = [0]
  pcw : s.pc w = .run n
  pcv : s.pc v = .idle
  q : s.q w = [(0, n)]
  qv : s.q v = []

/-- `v` has stolen the task and runs it. -/
structure Stolen (j n w v : Nat) (s : S) : Prop extends Base w v s where
  n0 : n ≠ 0
  fst : j = 0 ∨ s.wk w ≠ s.stk 0
  st : (s.fr 0).st = .loop (j + 1)
  steal : (s.fr 0).steal = j + 1
  join : (s.fr 0).join + j = 65535
  slots : (s.fr 0).slots = List.replicate j (some ()) ++ [none]
  stn : (s.fr n).st = .leaf
  stealn : (s.fr n).steal = 0
  joinn : (s.fr n).join = maxU16
  link : s.link n = .fork 0 j
  stk : s.stk n = s.wk w
  al0 : 0 ∈ s.al (s.stk 0)
  alw : s.al (s.wk w) = n :: (if s.wk w = s.stk 0 then [0] else [])
  al0' : s.wk w ≠ s.stk 0 → s.al (s.stk 0) = [0]
  pcw : s.pc w = .run n
  pcv : s.pc v = .run 0
  q : s.q w = []
  qv : s.q v = []
  log : status 0 s.log = .running v

/-- The child has returned and is about to decrement the join counter. -/
structure Left (j n w v : Nat) (s : S) (same : Bool) : Prop extends Base w v s where
  n0 : n ≠ 0
  fst : j = 0 ∨ s.wk w ≠ s.stk 0
  st : (s.fr 0).st = .loop (j + 1)
  steal : (s.fr 0).steal = j + 1
  join : (s.fr 0).join + j = 65535
  slots : (s.fr 0).slots = List.replicate (j + 1) (some ())
  al0 : s.al (s.stk 0) = [0]
  alw : s.wk w = s.stk 0 ∨ s.al (s.wk w) = []
  pcw : s.pc w = .finDec 0 n same
  same : same = decide (s.stk 0 = s.wk w)
  pcv : s.pc v = .run 0
  q : s.q w = []
  qv : s.q v = []
  log : status 0 s.log = .running v

theorem forked_of {j w v : Nat} {s : S} (hj : j < 65535) (h : Round j w v s) (qv : s.q v = []) (hr : RA s) :
    ∃ s' n, RA s' ∧ Forked j n w v s' := by
  obtain ⟨⟨ne, pos, alv, nv, nwv, fresh⟩, fst, st, steal, join, slots, al0, pcw, pcv, qw, alw, log⟩ := h
  refine ⟨doFork s w 0 .leaf (.loop (j + 1)), s.nf, hr.step (w := w) (ch := .take) ?_, ?_⟩
  · simp [step, pcw, st, body, hj]
  · have h0 : ¬ (0 = s.nf) := by omega
    refine ⟨⟨?_, ?_, ?_, ?_, ?_, ?_⟩, ?_, ?_, ?_, ?_, ?_, ?_, ?_, ?_, ?_, ?_, ?_, ?_, ?_, ?_, ?_, ?_, ?_, ?_⟩ <;>
      (try simp only [doFork, newFrame, upd_apply, if_true, h0, if_false]) <;> first | omega | assumption | (intros; grind [List.length_replicate])

theorem stolen_of {j n w v : Nat} {s : S} (hj : j < 65535) (h : Forked j n w v s) (hr : RA s) :
    ∃ s', RA s' ∧ Stolen j n w v s' := by
  obtain ⟨⟨ne, pos, alv, nv, nwv, fresh⟩, n0, fst, st, steal, join, slots, stn, stealn, joinn, link, stk, al0, alw, al0', pcw, pcv, q, qv⟩ := h
  have ne' : v ≠ w := Ne.symm ne
  have live : s.live 0 = true := by simpa [State.live] using al0
  have h1 := hr.step (w := v) (ch := .steal w) (s' := { s with
    q := upd s.q w [], pc := upd s.pc v (.stole 0), loc := upd s.loc 0 (.stolenBy v) })
    (by simp [step, pcv, Runtime.steal, q, ne', qv, State.wkEmpty, alv])
  generalize e1 : ({ s with q := upd s.q w [], pc := upd s.pc v (.stole 0), loc := upd s.loc 0 (.stolenBy v) } : S) = s1 at h1
  have h2 := h1.step (w := v) (ch := .take) (s' := { s1 with
      fr := upd s1.fr 0 { s1.fr 0 with steal := ((s1.fr 0).steal + 1) % U16, stolen := (s1.fr 0).stolen + 1 }
      pc := upd s1.pc v (.run 0)
      loc := upd s1.loc 0 (.running v)
      log := .resume 0 v :: s1.log })
    (by subst e1; simpa [step, upd_apply, stole, State.live] using live)
  refine ⟨_, h2, ?_⟩
  subst e1
  have hm : (j + 1) % U16 = j + 1 := Nat.mod_eq_of_lt (by unfold U16; omega)
  refine ⟨⟨?_, ?_, ?_, ?_, ?_, ?_⟩, ?_, ?_, ?_, ?_, ?_, ?_, ?_, ?_, ?_, ?_, ?_, ?_, ?_, ?_, ?_, ?_, ?_, ?_, ?_⟩ <;>
      (try simp only [upd_apply, if_true, n0, if_false, steal, hm, ne, ne', status]) <;> first | omega | assumption | (intros; grind)

theorem left_of {j n w v : Nat} {s : S} (h : Stolen j n w v s) (hr : RA s) :
    ∃ s' same, RA s' ∧ Left j n w v s' same := by
  obtain ⟨⟨ne, pos, alv, nv, nwv, fresh⟩, n0, fst, st, steal, join, slots, stn, stealn, joinn, link, stk, al0, alw, al0', pcw, pcv, q, qv, log⟩ := h
  have ne' : v ≠ w := Ne.symm ne
  have live : s.live 0 = true := by simpa [State.live] using al0
  have htop : s.isTop n = true := by simp [State.isTop, stk, alw]
  have hd : destroy s w n = .ok (destroyed s w) := by
    simp [destroy, stk, htop, destroyed]
  have h1 := hr.step (w := w) (ch := .take) (s' := { destroyed s w with
            fr := upd s.fr 0 { s.fr 0 with slots := (s.fr 0).slots.set j (some ()) }
            pc := upd s.pc w (.finPop 0 n)
            loc := upd s.loc n (.finishing w)
            log := .done n () :: s.log })
    (by simp [step, pcw, stn, body, doRet, stealn, joinn, link, live, hd, destroyed])
  generalize e1 : ({ destroyed s w with
            fr := upd s.fr 0 { s.fr 0 with slots := (s.fr 0).slots.set j (some ()) }
            pc := upd s.pc w (.finPop 0 n)
            loc := upd s.loc n (.finishing w)
            log := .done n () :: s.log } : S) = s1 at h1
  have hal : s1.al (s1.stk 0) = [0] := by
    subst e1; simp only [destroyed, upd_apply]; grind
  have h2 := h1.step (w := w) (ch := .take) (s' := { s1 with pc := upd s1.pc w (.finDec 0 n (decide (s1.stk 0 = s1.wk w))) })
    (by
      have hl : s1.live 0 = true := by simp [State.live, hal]
      have ht : s1.isTop 0 = true := by simp [State.isTop, hal]
      have hp : s1.pc w = .finPop 0 n := by subst e1; simp [upd_apply]
      have hq : s1.q w = [] := by subst e1; exact q
      simp [step, hp, finPop, hq, hl, ht])
  refine ⟨_, decide (s1.stk 0 = s1.wk w), h2, ?_⟩
  subst e1
  have hs : (List.replicate j (some ()) ++ [none]).set j (some ()) = List.replicate (j + 1) (some ()) := by
    rw [List.set_append_right _ _ (by simp), List.replicate_succ']; simp
  refine ⟨⟨?_, ?_, ?_, ?_, ?_, ?_⟩, ?_, ?_, ?_, ?_, ?_, ?_, ?_, ?_, ?_, ?_, ?_, ?_, ?_, ?_⟩ <;>
      (try simp only [destroyed, upd_apply, if_true, n0, if_false, ne, ne', status, slots, hs]) <;>
      first | omega | assumption | rfl | exact hal | (intros; grind)

theorem round_of {j n w v : Nat} {same : Bool} {s : S} (hj : j < 65534) (h : Left j n w v s same) (hr : RA s) :
    ∃ s', RA s' ∧ Round (j + 1) v w s' ∧ s'.q w = [] := by
  obtain ⟨⟨ne, pos, alv, nv, nwv, fresh⟩, n0, fst, st, steal, join, slots, al0, alw, pcw, hsame, pcv, q, qv, log⟩ := h
  have ne' : v ≠ w := Ne.symm ne
  have live : s.live 0 = true := by simp [State.live, al0]
  obtain ⟨s1, h1, p1, f1, e1⟩ : ∃ s1, step body w .take s = .ok s1 ∧ s1.pc w = .finLose same ∧
      s1.fr 0 = { s.fr 0 with kids := (s.fr 0).kids.erase n, join := ((s.fr 0).join + U16 - 1) % U16, joined := (s.fr 0).joined + 1 } ∧
      (s1.nf = s.nf ∧ s1.al = s.al ∧ s1.wk = s.wk ∧ s1.stk = s.stk ∧ s1.ns = s.ns ∧ s1.q = s.q ∧ s1.log = s.log ∧ s1.pc v = s.pc v) := by
    have hne : (s.fr 0).join ≠ 1 := by omega
    simp only [step, pcw, finDec, live, if_true, hne, if_false, report]
    refine ⟨_, rfl, ?_, ?_, ?_⟩ <;> simp [upd_apply, ne']
  obtain ⟨a1, a2, a3, a4, a5, a6, a7, a8⟩ := e1
  have h2 : step body w .take s1 = .ok { (if same then release s1 w else s1) with pc := upd s1.pc w .idle } := by
    simp only [step, p1, finLose]
    rw [if_pos]
    constructor
    · cases hs : same
      · simp only [Bool.false_eq_true, if_false, wkEmpty_iff, a2, a3]
        rw [hs] at hsame
        rcases alw with h | h
        · rw [h] at hsame; simp at hsame
        · exact h
      · simp only [if_true, wkEmpty_iff, release, a2, a5, upd_apply]
        exact (fresh s.ns (Nat.le_refl _)).1
    · cases same <;> simp only [release, Bool.false_eq_true, if_true, if_false, a6, q]
  refine ⟨_, (hr.step h1).step h2, ?_, ?_⟩
  · have hm : ((s.fr 0).join + U16 - 1) % U16 = (s.fr 0).join - 1 := by
      unfold U16; omega
    have hfr := fresh s.ns (Nat.le_refl _)
    have hj' : (s.fr 0).join - 1 + (j + 1) = 65535 := by omega
    clear join
    cases same <;> simp only [Bool.false_eq_true, if_true, if_false, release] <;> refine ⟨⟨?_, ?_, ?_, ?_, ?_, ?_⟩, ?_, ?_, ?_, ?_, ?_, ?_, ?_, ?_, ?_, ?_, ?_⟩ <;>
      (try simp only [upd_apply, if_true, if_false, ne, ne', f1, a1, a2, a3, a4, a5, a6, a7, a8, hm]) <;>
      first | omega | (intros; grind)
  · cases same <;> simp only [release, Bool.false_eq_true, if_true, if_false, a6, q]

theorem results_replicate (j : Nat) : results (List.replicate j (some ())) = some (List.replicate j ()) := by
  induction j with
  | zero => rfl
  | succ j ih => rw [List.replicate_succ, results, ih]; rfl

/-- The last child wins a join the task has not reached. -/
theorem second_resume {j n w v : Nat} {same : Bool} {s : S} (hj : j + 1 = 65535) (h : Left j n w v s same) (hr : RA s) :
    ∃ s', RA s' ∧ s'.pc w = .run 0 ∧ s'.pc v = .run 0 ∧ ¬ Legal s'.log := by
  obtain ⟨⟨ne, pos, alv, nv, nwv, fresh⟩, n0, fst, st, steal, join, slots, al0, alw, pcw, hsame, pcv, q, qv, log⟩ := h
  have ne' : v ≠ w := Ne.symm ne
  have live : s.live 0 = true := by simp [State.live, al0]
  have hns : s.wk w ≠ s.stk 0 := fst.resolve_left (by omega)
  have hsame : same = false := by
    rw [hsame]; exact decide_eq_false (fun e => hns e.symm)
  subst hsame
  have alw : s.al (s.wk w) = [] := alw.resolve_left hns
  obtain ⟨s1, h1, p1, f1, e1⟩ : ∃ s1, step body w .take s = .ok s1 ∧ s1.pc w = .finWin 0 false ∧
      s1.fr 0 = { s.fr 0 with kids := (s.fr 0).kids.erase n, join := ((s.fr 0).join + U16 - 1) % U16, joined := (s.fr 0).joined + 1 } ∧
      (s1.nf = s.nf ∧ s1.al = s.al ∧ s1.wk = s.wk ∧ s1.stk = s.stk ∧ s1.ns = s.ns ∧ s1.q = s.q ∧ s1.log = s.log ∧ s1.pc v = s.pc v) := by
    have hne : (s.fr 0).join = 1 := by omega
    simp only [step, pcw, finDec, live, if_true, hne, report]
    refine ⟨_, rfl, ?_, ?_, ?_⟩ <;> simp [upd_apply, ne', hne]
  obtain ⟨a1, a2, a3, a4, a5, a6, a7, a8⟩ := e1
  have hb : body (.loop (j + 1)) = .join fun _ => .fin := by simp only [body]; rw [if_neg (by omega)]
  obtain ⟨s2, h2, h3, h4, h5⟩ : ∃ s2, step body w .take s1 = .ok s2 ∧ s2.pc w = .run 0 ∧ s2.pc v = .run 0 ∧
      s2.log = .resume 0 w :: s1.log := by
    simp only [step, p1, finWin, State.live, State.isTop, State.wkEmpty, passJoin, a2, a3, a4, al0, alw, upd_apply, if_true, f1, reset,
      st, hb, slots, results_replicate]
    simp [upd_apply, ne', a8, pcv]
  refine ⟨s2, (hr.step h1).step h2, h3, h4, ?_⟩
  rw [h5, a7]
  intro hl
  have := hl.2.1
  simp [MayResume, log] at this

/-- The state before the first fork. -/
theorem first : ∃ s, RA s ∧ Round 0 0 1 s ∧ s.q 1 = [] := by
  have h0 : RA (submit (State.start (.loop 0)) (.loop 0) 0) := (ReachAny.start _).submit 0 rfl
  obtain ⟨s, hs, hr⟩ : ∃ s, step body 0 .take (submit (State.start (.loop 0)) (.loop 0) 0) = .ok s ∧ Round 0 0 1 s ∧ s.q 1 = [] := by
    refine ⟨_, rfl, ⟨⟨by decide, by decide, rfl, by decide, by decide, ?_⟩, Or.inl rfl, rfl, rfl, rfl, rfl, rfl, rfl, rfl, rfl, Or.inl rfl, rfl⟩, rfl⟩
    intro i hi
    have h1 : 1 ≤ i := hi
    refine ⟨?_, ?_, ?_, ?_⟩
    · simp [submit, newFrame, State.start, upd_apply]; omega
    · simp [submit, newFrame, State.start, upd_apply]; omega
    · simp [submit, newFrame, State.start, upd_apply]; omega
    · simp [submit, newFrame, State.start, upd_apply]; omega
  exact ⟨s, h0.step hs, hr⟩

theorem rounds (j : Nat) (hj : j ≤ 65534) : ∃ s w v, RA s ∧ Round j w v s ∧ s.q v = [] := by
  induction j with
  | zero => obtain ⟨s, h1, h2, h3⟩ := first; exact ⟨s, 0, 1, h1, h2, h3⟩
  | succ j ih =>
    obtain ⟨s, w, v, h1, h2, h3⟩ := ih (by omega)
    obtain ⟨s1, n, h1, h2⟩ := forked_of (by omega) h2 h3 h1
    obtain ⟨s2, h1, h2⟩ := stolen_of (by omega) h2 h1
    obtain ⟨s3, same, h1, h2⟩ := left_of h2 h1
    obtain ⟨s4, h1, h2, h3⟩ := round_of (by omega) h2 h1
    exact ⟨s4, v, w, h1, h2, h3⟩

/-- C10, the negation: there is a program that forks 65535 children in one scope and a schedule of two workers after which both
run the same task, one of them having resumed it while the other was running it. -/
theorem join_counter_overflow : ∃ s : S, ReachAny body pend s ∧ (∃ w v, w ≠ v ∧ s.pc w = .run 0 ∧ s.pc v = .run 0) ∧ ¬ Legal s.log := by
  obtain ⟨s, w, v, h1, h2, h3⟩ := rounds 65534 (Nat.le_refl _)
  generalize hj : 65534 = j at h2
  obtain ⟨s1, n, h1, h2⟩ := forked_of (by omega) h2 h3 h1
  obtain ⟨s2, h1, h2⟩ := stolen_of (by omega) h2 h1
  obtain ⟨s3, same, h1, h2⟩ := left_of h2 h1
  obtain ⟨s4, h1, h3, h4, h5⟩ := second_resume (by omega) h2 h1
  exact ⟨s4, h1, ⟨w, v, h2.ne, h3, h4⟩, h5⟩

end Verif.Runtime.Counter
