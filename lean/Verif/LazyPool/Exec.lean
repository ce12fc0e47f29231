import Verif.LazyPool.LiveStop

/-! Running schedules, to exhibit executions. -/
namespace Verif.LazyPool
open Verif.EventCount

instance (c : Cfg) (s : St) (i v : Nat) : Decidable (Eligible c s i v) := by unfold Eligible; infer_instance

/-- The first worker `notify_one` may wake. -/
def pick (c : Cfg) (s : St) (i : Nat) : Option Nat := (List.range c.N).find? fun v => decide (Eligible c s i v)

/-- A step of the actor; `k` is the worker a job is submitted to, or 1 for a successful theft or a spurious wake-up. -/
def fire (c : Cfg) (s : St) (k : Nat) : Actor → Option St
  | .worker w =>
    if w < c.N then
      match s.pc w with
      | .wake => some (doWake c s w)
      | .pop1 => if s.inbox w = [] then some (s.go w .steal) else some (doPop s w .tws1)
      | .steal => if k = 1 then some (s.go w .tws1) else some (s.go w .prep)
      | .prep => some (doPrep c s w)
      | .pop2 => if s.inbox w = [] then some (s.go w .stopChk) else some (doPop s w .cancelPop)
      | .cancelPop => some (doCancel c s w .tws1)
      | .stopChk => if s.stop = true then some (s.go w .quit1) else some (s.go w .dec)
      | .quit1 => some (doCancel c s w .quit2)
      | .quit2 => if s.must (c.dom w) = true then some ((s.bump (c.dom w)).go w .quit3) else some ((s.bump (c.dom w)).go w .quit4)
      | .quit3 => some { s with pc := upd (rouse c s (c.dom w)) w .quit4 }
      | .quit4 => some (doUnthief c s w .fin1)
      | .fin1 => some { s.go w .fin2 with stop := true }
      | .fin2 => some { s.go w .fin3 with latch := s.latch - 1 }
      | .fin3 => if s.latch = 0 then some (s.go w .fin4) else none
      | .fin4 => none
      | .dec => if s.thief (c.dom w) = 1 then some (doUnthief c s w .chk) else some (doUnthief c s w .look)
      | .chk => if s.active > 0 then some (s.go w .cancelWake) else some (s.go w .look)
      | .cancelWake => some (doCancel c s w .wake)
      | .look => if epochOf (s.val (c.dom w)) = s.key w then some (doSleep c s w) else some (s.go w .leave)
      | .asleep => if k = 1 then some (s.go w .look) else none
      | .leave => some (doCancel c s w .wake)
      | .tws1 => if s.thief (c.dom w) = 1 then some (doUnthief c s w .tws2) else some (doUnthief c s w .act)
      | .tws2 => if s.must (c.dom w) = true then some ((s.bump (c.dom w)).go w .tws3) else some ((s.bump (c.dom w)).go w .act)
      | .tws3 =>
        match pick c s (c.dom w) with
        | some v => some { s with pc := upd (upd s.pc v .look) w .act }
        | none => some (s.go w .act)
      | .act => if s.active = 0 then some (doAct s w .scan) else some (doAct s w .work)
      | .scan =>
        if s.idx w < c.D then if s.thief (s.idx w) = 0 then some (s.go w .sc2) else some (doNext s w) else some (s.go w .work)
      | .sc2 => if s.must (s.idx w) = true then some ((s.bump (s.idx w)).go w .sc3) else some (doNext (s.bump (s.idx w)) w)
      | .sc3 =>
        match pick c s (s.idx w) with
        | some v => some { s with pc := upd (upd s.pc v .look) w .scan, idx := upd s.idx w (s.idx w + 1) }
        | none => some (doNext s w)
      | .work =>
        match s.hand w with
        | j :: js => some { s with hand := upd s.hand w js, started := j :: s.started, loc := upd s.loc j .started }
        | [] => some (s.go w .deact)
      | .deact => some { s.go w .wake with active := decr s.active }
    else none
  | .submit j =>
    match s.call j with
    | .unsent =>
      if k < c.N then some { s with
        inbox := upd s.inbox k (s.inbox k ++ [j]), call := upd s.call j (.pushed k), loc := upd s.loc j (.inbox k) }
      else none
    | .pushed w =>
      if s.must (c.dom w) = true then some { s.bump (c.dom w) with call := upd s.call j (.waking w) }
      else some { s.bump (c.dom w) with call := upd s.call j .returned }
    | .waking w => some { s with pc := rouse c s (c.dom w), call := upd s.call j .returned }
    | .returned => none
  | .dtor =>
    match s.dpc with
    | .alive => some { s with stop := true, dpc := .notify 0 }
    | .notify i =>
      if i < c.D then
        if s.must i = true then some { s.bump i with dpc := .rousing i } else some { s.bump i with dpc := .notify (i + 1) }
      else some { s with dpc := .joining }
    | .rousing i => some { s with pc := rouse c s i, dpc := .notify (i + 1) }
    | .joining => if ∀ w, w < c.N → s.pc w = .fin4 then some { s with dpc := .gone } else none
    | .gone => none

theorem pick_some {c : Cfg} {s : St} {i v : Nat} (h : pick c s i = some v) : v < c.N ∧ Eligible c s i v := by
  unfold pick at h
  have h1 := List.mem_of_find?_eq_some h
  have h2 := List.find?_some h
  exact ⟨List.mem_range.1 h1, by simpa using h2⟩

theorem pick_none {c : Cfg} {s : St} {i : Nat} (h : pick c s i = none) : ∀ v, v < c.N → ¬ Eligible c s i v := by
  unfold pick at h
  intro v hv he
  have := (List.find?_eq_none.1 h) v (List.mem_range.2 hv)
  simp [he] at this

theorem fire_step {c : Cfg} {s s' : St} {k : Nat} {a : Actor} (h : fire c s k a = some s') : Step c a s s' := by
  cases a with
  | worker w =>
    simp only [fire] at h
    split at h
    · rename_i hw
      split at h <;> rename_i hp
      · cases h; exact .wake s w hw hp
      · split at h <;> rename_i hi <;> cases h
        · exact .pop1None s w hw hp hi
        · exact .pop1Some s w hw hp hi
      · split at h <;> cases h
        · exact .stealSome s w hw hp
        · exact .stealNone s w hw hp
      · cases h; exact .prep s w hw hp
      · split at h <;> rename_i hi <;> cases h
        · exact .pop2None s w hw hp hi
        · exact .pop2Some s w hw hp hi
      · cases h; exact .cancelPop s w hw hp
      · split at h <;> rename_i hi <;> cases h
        · exact .stopYes s w hw hp hi
        · exact .stopNo s w hw hp (by simpa using hi)
      · cases h; exact .quit1 s w hw hp
      · split at h <;> rename_i hi <;> cases h
        · exact .quit2 s w hw hp hi
        · exact .quit2None s w hw hp (by simpa using hi)
      · cases h; exact .quit3 s w hw hp
      · cases h; exact .quit4 s w hw hp
      · cases h; exact .fin1 s w hw hp
      · cases h; exact .fin2 s w hw hp
      · split at h <;> rename_i hi <;> cases h
        exact .fin3 s w hw hp hi
      · cases h
      · split at h <;> rename_i hi <;> cases h
        · exact .decLast s w hw hp hi
        · exact .decMore s w hw hp hi
      · split at h <;> rename_i hi <;> cases h
        · exact .chkYes s w hw hp hi
        · exact .chkNo s w hw hp hi
      · cases h; exact .cancelWake s w hw hp
      · split at h <;> rename_i hi <;> cases h
        · exact .lookSame s w hw hp hi
        · exact .lookDiff s w hw hp hi
      · split at h <;> cases h
        exact .spurious s w hw hp
      · cases h; exact .leave s w hw hp
      · split at h <;> rename_i hi <;> cases h
        · exact .tws1Last s w hw hp hi
        · exact .tws1More s w hw hp hi
      · split at h <;> rename_i hi <;> cases h
        · exact .tws2 s w hw hp hi
        · exact .tws2None s w hw hp (by simpa using hi)
      · split at h <;> rename_i hi <;> cases h
        · exact .tws3 s w _ hw hp (pick_some hi).1 (pick_some hi).2
        · exact .tws3None s w hw hp (pick_none hi)
      · split at h <;> rename_i hi <;> cases h
        · exact .actFirst s w hw hp hi
        · exact .actMore s w hw hp hi
      · split at h <;> rename_i hi
        · split at h <;> rename_i ht <;> cases h
          · exact .scanNone s w hw hp hi ht
          · exact .scanSome s w hw hp hi ht
        · cases h; exact .scanEnd s w hw hp hi
      · split at h <;> rename_i hi <;> cases h
        · exact .sc2 s w hw hp hi
        · exact .sc2None s w hw hp (by simpa using hi)
      · split at h <;> rename_i hi <;> cases h
        · exact .sc3 s w _ hw hp (pick_some hi).1 (pick_some hi).2
        · exact .sc3None s w hw hp (pick_none hi)
      · split at h <;> rename_i hi <;> cases h
        · exact .run s w _ _ hw hp hi
        · exact .runEnd s w hw hp hi
      · cases h; exact .deact s w hw hp
    · cases h
  | submit j =>
    simp only [fire] at h
    split at h <;> rename_i hp
    · split at h <;> rename_i hi <;> cases h
      exact .push s j k hp hi
    · split at h <;> rename_i hi <;> cases h
      · exact .notify s j _ hp hi
      · exact .notifyNone s j _ hp (by simpa using hi)
    · cases h; exact .rouse s j _ hp
    · cases h
  | dtor =>
    simp only [fire] at h
    split at h <;> rename_i hp
    · cases h; exact .dstop s hp
    · split at h <;> rename_i hi
      · split at h <;> rename_i hm <;> cases h
        · exact .dnotify s _ hp hi hm
        · exact .dnotifyNone s _ hp hi (by simpa using hm)
      · cases h; exact .dlast s _ hp hi
    · cases h; exact .drouse s _ hp
    · split at h <;> rename_i hi <;> cases h
      exact .djoin s hp hi
    · cases h

/-- One entry of a script: an actor and its choice; it is skipped if the actor cannot take a step. -/
def tick (c : Cfg) (s : St) (e : Actor × Nat) : St := (fire c s e.2 e.1).getD s

/-- The state after the first `t` entries. -/
def play (c : Cfg) (script : List (Actor × Nat)) (t : Nat) : St := (script.take t).foldl (tick c) (St.start c)

theorem play_succ (c : Cfg) (script : List (Actor × Nat)) (t : Nat) :
    play c script (t + 1) = match script[t]? with
      | some e => tick c (play c script t) e
      | none => play c script t := by
  unfold play
  rw [List.take_add_one, List.foldl_append]
  cases script[t]? <;> simp

/-- Each step makes at most one notification. -/
theorem n_step {c : Cfg} {a : Actor} {s s' : St} (st : Step c a s s') (i : Nat) : s'.n i ≤ s.n i + 1 := by
  cases st <;>
    simp only [doWake, doPop, doPrep, doCancel, St.bump, doUnthief, doSleep, doAct, doNext, St.go, upd_apply] at * <;> grind

theorem n_tick (c : Cfg) (s : St) (e : Actor × Nat) (i : Nat) : (tick c s e).n i ≤ s.n i + 1 := by
  unfold tick
  cases h : fire c s e.2 e.1 with
  | none => simp
  | some s' => exact n_step (fire_step h) i

theorem n_play (c : Cfg) (script : List (Actor × Nat)) (t i : Nat) : (play c script t).n i ≤ min t script.length := by
  induction t with
  | zero => simp [play, St.start]
  | succ t ih =>
    rw [play_succ]
    split
    · rename_i e he
      have := n_tick c (play c script t) e i
      have : t < script.length := by
        obtain ⟨h, _⟩ := List.getElem?_eq_some_iff.1 he; exact h
      omega
    · omega

/-- Every script, followed by silence, is a schedule. -/
def Script.run (c : Cfg) (script : List (Actor × Nat)) (h : script.length < P32) : Run c where
  st := play c script
  who t := match script[t]? with
    | some e => if (fire c (play c script t) e.2 e.1).isSome then some e.1 else none
    | none => none
  start := by simp [play]
  few t w _ _ := by have := n_play c script t (c.dom w); omega
  next t := by
    rw [play_succ]
    cases script[t]? with
    | none => exact .inl ⟨rfl, rfl⟩
    | some e =>
      unfold tick
      cases hf : fire c (play c script t) e.2 e.1 with
      | none => left; simp [hf]
      | some s' => exact .inr ⟨e.1, by simp [hf], by have := fire_step hf; simpa [hf] using this⟩

theorem play_end (c : Cfg) (script : List (Actor × Nat)) {t : Nat} (h : script.length ≤ t) :
    play c script t = script.foldl (tick c) (St.start c) := by
  unfold play; rw [List.take_of_length_le h]

/-- It is fair if at its end nobody is ready. -/
theorem Script.fair {c : Cfg} {script : List (Actor × Nat)} {h : script.length < P32}
    (he : ∀ a, ¬ Ready c (script.foldl (tick c) (St.start c)) a) : (Script.run c script h).Fair := by
  intro a t
  refine ⟨max t script.length, by omega, .inl ?_⟩
  show ¬ Ready c (play c script (max t script.length)) a
  rw [play_end c script (by omega)]
  exact he a

theorem call_tick {c : Cfg} {s : St} {e : Actor × Nat} {j : Nat} (h : e.1 ≠ .submit j) : (tick c s e).call j = s.call j := by
  unfold tick
  cases hf : fire c s e.2 e.1 with
  | none => rfl
  | some s' =>
    have st := fire_step hf
    simp only [Option.getD_some]
    revert h
    generalize e.1 = a at st
    intro h
    cases st <;>
      simp only [doWake, doPop, doPrep, doCancel, St.bump, doUnthief, doSleep, doAct, doNext, St.go, upd_apply] at * <;> grind

/-- Jobs the script does not mention are not submitted. -/
theorem call_others (c : Cfg) (script : List (Actor × Nat)) (j : Nat) (h : ∀ e, e ∈ script → e.1 ≠ .submit j) (s : St) :
    (script.foldl (tick c) s).call j = s.call j := by
  induction script generalizing s with
  | nil => rfl
  | cons e es ih =>
    rw [List.foldl_cons, ih fun e he => h e (by simp [he]), call_tick (h e (by simp))]

theorem tick_steal {c : Cfg} {s : St} {e : Actor × Nat} {w : Nat} (h : e.2 ≠ 1) (hp : s.pc w = .steal) : (tick c s e).pc w ≠ .tws1 := by
  obtain ⟨a, k⟩ := e
  simp only at h
  unfold tick
  cases hf : fire c s k a with
  | none => simp [hp]
  | some s' =>
    simp only [Option.getD_some]
    by_cases ha : a = .worker w
    · subst ha
      simp only [fire, hp, h, if_false] at hf
      split at hf <;> cases hf
      simp [St.go, upd_apply]
    · rcases others (fire_step hf) w ha with e | ⟨e, _⟩
      · rw [e, hp]; simp
      · rw [hp] at e; cases e

/-- The rest of a script neither submits nor steals. -/
theorem Script.quiet {c : Cfg} {script : List (Actor × Nat)} {h : script.length < P32} {t0 : Nat}
    (hq : ∀ e, e ∈ script.drop t0 → (∀ j, e.1 ≠ .submit j) ∧ e.2 ≠ 1) : Quiet (Script.run c script h) t0 := by
  have mem : ∀ t e, t0 ≤ t → script[t]? = some e → e ∈ script.drop t0 := fun t e ht he => by
    rw [List.mem_iff_getElem?]
    exact ⟨t - t0, by rw [List.getElem?_drop, Nat.add_sub_cancel' ht]; exact he⟩
  constructor
  · intro t j ht hu
    show (play c script (t + 1)).call j = _
    rw [play_succ]
    cases he : script[t]? with
    | none => exact hu
    | some e =>
      show (tick c _ e).call j = _
      rw [call_tick ((hq e (mem t e ht he)).1 j)]; exact hu
  · intro t w ht hp
    show (play c script (t + 1)).pc w ≠ _
    rw [play_succ]
    cases he : script[t]? with
    | none => show (play c script t).pc w ≠ _; rw [show (play c script t).pc w = .steal from hp]; simp
    | some e => exact tick_steal (hq e (mem t e ht he)).2 hp

end Verif.LazyPool
