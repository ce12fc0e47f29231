import Verif.Runtime.Model

/-!
The successful steps as a relation, with the checks that passed as premises: what the proofs work with.
-/
namespace Verif.Runtime
variable {σ V : Type}

/-- The state after a join is passed. -/
def passed (s : State σ V) (w f : Nat) (k : List V → σ) (vs : List V) : State σ V :=
  { s with
    fr := upd s.fr f { s.fr f with st := k vs, slots := [], inits := [] }
    pc := upd s.pc w (.run f)
    loc := upd s.loc f (.running w)
    log := .resume f w :: s.log }

/-- The state after a frame on top of the worker's stack is destroyed. -/
def destroyed (s : State σ V) (w : Nat) : State σ V := { s with al := upd s.al (s.wk w) (s.al (s.wk w)).tail }

/-- The frame `f` is on top of stack `k`. -/
def Top (s : State σ V) (k f : Nat) : Prop := s.stk f = k ∧ (s.al k).head? = some f

/-- `P` says which states a submitted task may start in. -/
inductive Step (body : σ → Act σ V) (P : σ → Prop) : State σ V → State σ V → Prop
  | fork (s : State σ V) (w f : Nat) (c k : σ) : s.pc w = .run f → body (s.fr f).st = .fork c k → Step body P s (doFork s w f c k)
  | call (s : State σ V) (w f : Nat) (c : σ) (k : V → σ) : s.pc w = .run f → body (s.fr f).st = .call c k →
      Step body P s (doCall s w f c)
  | joinNow (s : State σ V) (w f : Nat) (k : List V → σ) (vs : List V) : s.pc w = .run f → body (s.fr f).st = .join k →
      (s.fr f).steal = 0 → (s.fr f).join = maxU16 → Top s (s.wk w) f → results (s.fr f).slots = some vs →
      Step body P s (passed { s with log := .suspend f .join :: s.log } w f k vs)
  | joinWait (s : State σ V) (w f : Nat) (k : List V → σ) : s.pc w = .run f → body (s.fr f).st = .join k →
      (s.fr f).steal ≠ 0 → Step body P s { s with log := .suspend f .join :: s.log, pc := upd s.pc w (.joinLoad f) }
  | loadWin (s : State σ V) (w f : Nat) : s.pc w = .joinLoad f → (s.fr f).steal = maxU16 - (s.fr f).join →
      Step body P s { s with pc := upd s.pc w (.joinTake f), loc := upd s.loc f (.winning w) }
  | loadLose (s : State σ V) (w f : Nat) : s.pc w = .joinLoad f → (s.fr f).steal ≠ maxU16 - (s.fr f).join →
      Step body P s { s with pc := upd s.pc w (.joinSub f) }
  | subWin (s : State σ V) (w f : Nat) : s.pc w = .joinSub f → (s.fr f).steal = maxU16 - (s.fr f).join →
      Step body P s { s with
        fr := upd s.fr f { s.fr f with join := ((s.fr f).join + U16 - (maxU16 - (s.fr f).steal)) % U16 }
        pc := upd s.pc w (.joinTake f)
        loc := upd s.loc f (.winning w) }
  | subLose (s : State σ V) (w f : Nat) : s.pc w = .joinSub f → (s.fr f).steal ≠ maxU16 - (s.fr f).join →
      Step body P s { s with
        fr := upd s.fr f { s.fr f with join := ((s.fr f).join + U16 - (maxU16 - (s.fr f).steal)) % U16 }
        pc := upd s.pc w .selfSteal
        loc := upd s.loc f .parked }
  | joinTake (s : State σ V) (w f : Nat) (k : List V → σ) (vs : List V) : s.pc w = .joinTake f → body (s.fr f).st = .join k →
      (s.fr f).steal ≠ 0 → s.al (s.wk w) = [] → Top s (s.stk f) f → results (s.fr f).slots = some vs →
      Step body P s (passed { s with wk := upd s.wk w (s.stk f), fr := upd s.fr f (reset (s.fr f)) } w f k vs)
  | retRoot (s : State σ V) (w f : Nat) (v : V) : s.pc w = .run f → body (s.fr f).st = .ret v → (s.fr f).steal = 0 →
      s.link f = .root → Top s (s.wk w) f → s.al (s.wk w) = [f] → s.q w = [] →
      Step body P s { destroyed s w with pc := upd s.pc w .idle, loc := upd s.loc f .gone, log := .done f v :: s.log }
  | retCall (s : State σ V) (w f p : Nat) (v : V) (c : σ) (k : V → σ) : s.pc w = .run f → body (s.fr f).st = .ret v →
      (s.fr f).steal = 0 → s.link f = .call p → Top s (s.wk w) f → body (s.fr p).st = .call c k →
      Step body P s { destroyed s w with
            fr := upd s.fr p { s.fr p with st := k v }
            pc := upd s.pc w (.run p)
            loc := upd (upd s.loc f .gone) p (.running w)
            log := .resume p w :: .done f v :: s.log }
  | retFork (s : State σ V) (w f p i : Nat) (v : V) : s.pc w = .run f → body (s.fr f).st = .ret v →
      (s.fr f).steal = 0 → s.link f = .fork p i → Top s (s.wk w) f →
      Step body P s { destroyed s w with
            fr := upd s.fr p { s.fr p with slots := (s.fr p).slots.set i (some v) }
            pc := upd s.pc w (.finPop p f)
            loc := upd s.loc f (.finishing w)
            log := .done f v :: s.log }
  | popHit (s : State σ V) (w p c c' : Nat) (r : List (Nat × Nat)) : s.pc w = .finPop p c → s.q w = (p, c') :: r →
      Step body P s { report s p c with
        q := upd s.q w r
        pc := upd s.pc w (.run p)
        loc := upd (report s p c).loc p (.running w)
        log := .resume p w :: s.log }
  | popMiss (s : State σ V) (w p c : Nat) : s.pc w = .finPop p c → s.q w = [] →
      (s.stk p = s.wk w → Top s (s.wk w) p) →
      Step body P s { s with pc := upd s.pc w (.finDec p c (decide (s.stk p = s.wk w))) }
  | decWin (s : State σ V) (w p c : Nat) (same : Bool) : s.pc w = .finDec p c same → (s.fr p).join = 1 →
      Step body P s { report s p c with
        fr := upd (report s p c).fr p { (report s p c).fr p with
          join := (((report s p c).fr p).join + U16 - 1) % U16, joined := ((report s p c).fr p).joined + 1 }
        pc := upd s.pc w (.finWin p same)
        loc := upd (report s p c).loc p (.winning w) }
  | decLose (s : State σ V) (w p c : Nat) (same : Bool) : s.pc w = .finDec p c same → (s.fr p).join ≠ 1 →
      Step body P s { report s p c with
        fr := upd (report s p c).fr p { (report s p c).fr p with
          join := (((report s p c).fr p).join + U16 - 1) % U16, joined := ((report s p c).fr p).joined + 1 }
        pc := upd s.pc w (.finLose same) }
  | finWin (s : State σ V) (w p : Nat) (same : Bool) (k : List V → σ) (vs : List V) : s.pc w = .finWin p same →
      body (s.fr p).st = .join k → results (s.fr p).slots = some vs → (same = true → s.wk w = s.stk p) →
      (same = false → s.al (s.wk w) = []) → Top s (s.stk p) p →
      Step body P s (passed { s with
        wk := if same then s.wk else upd s.wk w (s.stk p), fr := upd s.fr p (reset (s.fr p)) } w p k vs)
  | finLose (s : State σ V) (w : Nat) (same : Bool) : s.pc w = .finLose same →
      (same = false → s.al (s.wk w) = []) → s.q w = [] →
      Step body P s { (if same then release s w else s) with pc := upd s.pc w .idle }
  | selfSteal (s : State σ V) (w p c : Nat) (r : List (Nat × Nat)) : s.pc w = .selfSteal → s.q w = (p, c) :: r →
      Step body P s { s with q := upd s.q w r, pc := upd s.pc w (.stole p), loc := upd s.loc p (.stolenBy w) }
  | selfNone (s : State σ V) (w : Nat) : s.pc w = .selfSteal → s.q w = [] → s.al (s.wk w) = [] →
      Step body P s { s with pc := upd s.pc w .idle }
  | stole (s : State σ V) (w p : Nat) : s.pc w = .stole p →
      Step body P s { s with
        fr := upd s.fr p { s.fr p with steal := ((s.fr p).steal + 1) % U16, stolen := (s.fr p).stolen + 1 }
        pc := upd s.pc w (.run p)
        loc := upd s.loc p (.running w)
        log := .resume p w :: s.log }
  | switch (s : State σ V) (w f d : Nat) (k : σ) (z : Bool) : s.pc w = .run f → body (s.fr f).st = .switch d k →
      z = decide ((s.fr f).steal = 0) →
      (z = true → Top s (s.wk w) f) → (z = false → s.wk w ≠ s.stk f) →
      Step body P s { s with
        fr := upd s.fr f { s.fr f with st := k }
        pc := upd s.pc w (.switchRel z)
        inbox := upd s.inbox d (s.inbox d ++ [f])
        loc := upd s.loc f (.inbox d)
        log := .suspend f (.switch d) :: s.log }
  | switchRel (s : State σ V) (w : Nat) (z : Bool) : s.pc w = .switchRel z → (z = false → s.al (s.wk w) = []) →
      Step body P s { (if z then release s w else s) with pc := upd s.pc w .selfSteal }
  | steal (s : State σ V) (w v p c : Nat) (r : List (Nat × Nat)) : s.pc w = .idle → w ≠ v → s.q v = r ++ [(p, c)] →
      s.q w = [] → s.al (s.wk w) = [] →
      Step body P s { s with q := upd s.q v r, pc := upd s.pc w (.stole p), loc := upd s.loc p (.stolenBy w) }
  | take (s : State σ V) (w f : Nat) (r : List Nat) : s.pc w = .idle → s.inbox w = f :: r → s.q w = [] →
      s.al (s.wk w) = [] → ((s.fr f).steal = 0 → Top s (s.stk f) f) →
      Step body P s { s with
        inbox := upd s.inbox w r
        wk := if (s.fr f).steal = 0 then upd s.wk w (s.stk f) else s.wk
        pc := upd s.pc w (.run f)
        loc := upd s.loc f (.running w)
        log := .resume f w :: s.log }
  | submit (s : State σ V) (c : σ) (w : Nat) : P c → Step body P s (submit s c w)

theorem passJoin_ok {body : σ → Act σ V} {s s' : State σ V} {w f : Nat} (h : passJoin body s w f = .ok s') :
    ∃ k vs, s' = passed s w f k vs ∧ (s.fr f).steal = 0 ∧ (s.fr f).join = maxU16 ∧ s.wk w = s.stk f ∧ Top s (s.stk f) f ∧
      body (s.fr f).st = .join k ∧ results (s.fr f).slots = some vs := by
  unfold passJoin at h
  dsimp only at h
  split at h
  · rename_i h1
    split at h
    · rename_i k vs h2 h3
      cases h
      exact ⟨k, vs, rfl, h1.1, h1.2.1, h1.2.2.1, ⟨rfl, by simpa [State.isTop] using h1.2.2.2⟩, h2, h3⟩
    · cases h
  · cases h

theorem destroy_ok {s s' : State σ V} {w f : Nat} (h : destroy s w f = .ok s') :
    s' = destroyed s w ∧ Top s (s.wk w) f := by
  unfold destroy at h
  split at h
  · rename_i h1
    cases h
    exact ⟨rfl, h1.1.symm, by rw [h1.1]; simpa [State.isTop] using h1.2⟩
  · cases h

theorem isTop_iff {s : State σ V} {f : Nat} : s.isTop f = true ↔ Top s (s.stk f) f := by simp [State.isTop, Top]

theorem wkEmpty_iff {s : State σ V} {w : Nat} : s.wkEmpty w = true ↔ s.al (s.wk w) = [] := by simp [State.wkEmpty]

/-- Every successful step of the model is one of the relation. -/
theorem step_rel {body : σ → Act σ V} {P : σ → Prop} {w : Nat} {ch : Choice} {s s' : State σ V} (h : step body w ch s = .ok s') :
    Step body P s s' := by
  unfold step at h
  cases hpc : s.pc w with
  | idle =>
    rw [hpc] at h
    cases ch with
    | take =>
      simp only [take] at h
      cases hi : s.inbox w with
      | nil => rw [hi] at h; cases h
      | cons f r =>
        rw [hi] at h
        simp only at h
        split at h
        · rename_i hc
          cases h
          exact .take s w f r hpc hi hc.2.1 (wkEmpty_iff.1 hc.2.2.1) fun e => isTop_iff.1 (hc.2.2.2 e)
        · cases h
    | steal v =>
      simp only [steal] at h
      cases hl : (s.q v).getLast? with
      | none => rw [hl] at h; cases h
      | some e =>
        rw [hl] at h
        simp only at h
        split at h
        · rename_i hc
          cases h
          have hne : s.q v ≠ [] := by intro e; rw [e] at hl; cases hl
          have : s.q v = (s.q v).dropLast ++ [(e.1, e.2)] := by
            rw [List.getLast?_eq_some_getLast hne] at hl
            cases hl
            exact (List.dropLast_concat_getLast hne).symm
          exact .steal s w v e.1 e.2 _ hpc hc.1 this hc.2.1 (wkEmpty_iff.1 hc.2.2)
        · split at h <;> cases h
  | run f =>
    rw [hpc] at h
    simp only at h
    cases hb : body (s.fr f).st with
    | ret v =>
      rw [hb] at h
      simp only [doRet] at h
      split at h
      · rename_i hc
        cases hl : s.link f with
        | root =>
          rw [hl] at h
          simp only at h
          cases hd : destroy s w f with
          | ok s1 =>
            rw [hd] at h
            obtain ⟨rfl, ht⟩ := destroy_ok hd
            simp only at h
            split at h
            · rename_i hc2
              cases h
              have he : s.al (s.wk w) = [f] := by
                have h1 := wkEmpty_iff.1 hc2.1
                simp only [destroyed, upd, if_true] at h1
                have h2 := ht.2
                cases hx : s.al (s.wk w) with
                | nil => rw [hx] at h2; cases h2
                | cons a l =>
                  rw [hx] at h1 h2
                  simp at h1 h2
                  rw [h1, h2]
              exact .retRoot s w f v hpc hb hc.1 hl ht he hc2.2
            · cases h
          | ub => rw [hd] at h; cases h
          | no => rw [hd] at h; cases h
        | call p =>
          rw [hl] at h
          simp only at h
          split at h
          · split at h
            · rename_i c k s1 hb2 hd
              obtain ⟨rfl, ht⟩ := destroy_ok hd
              cases h
              exact .retCall s w f p v c k hpc hb hc.1 hl ht hb2
            · cases h
          · cases h
        | fork p i =>
          rw [hl] at h
          simp only at h
          split at h
          · split at h
            · rename_i s1 hd
              obtain ⟨rfl, ht⟩ := destroy_ok hd
              cases h
              exact .retFork s w f p i v hpc hb hc.1 hl ht
            · cases h
          · cases h
      · cases h
    | fork c k => rw [hb] at h; cases h; exact .fork s w f c k hpc hb
    | call c k => rw [hb] at h; cases h; exact .call s w f c k hpc hb
    | join k =>
      rw [hb] at h
      simp only [doJoin] at h
      split at h
      · rename_i h0
        obtain ⟨k', vs, rfl, h1, h2, h3, h4, h5, h6⟩ := passJoin_ok h
        simp only at h1 h2 h3 h4 h5 h6
        exact .joinNow s w f k' vs hpc h5 h1 h2 (by rw [h3]; exact h4) h6
      · rename_i h0
        cases h
        exact .joinWait s w f k hpc hb h0
    | switch d k =>
      rw [hb] at h
      simp only [doSwitch] at h
      split at h
      · rename_i hc
        cases h
        refine .switch s w f d k _ hpc hb rfl (fun e => ?_) (fun e => hc.2 (by simpa using e))
        have := hc.1 e
        rw [this.1]; exact isTop_iff.1 this.2
      · cases h
  | joinLoad f =>
    rw [hpc] at h
    simp only [joinLoad] at h
    split at h
    · rename_i h0; cases h; exact .loadWin s w f hpc h0
    · rename_i h0; cases h; exact .loadLose s w f hpc h0
  | joinSub f =>
    rw [hpc] at h
    simp only [joinSub] at h
    split at h
    · rename_i h0; cases h; exact .subWin s w f hpc h0
    · rename_i h0; cases h; exact .subLose s w f hpc h0
  | joinTake f =>
    rw [hpc] at h
    simp only [joinTake] at h
    split at h
    · rename_i hc
      obtain ⟨k, vs, rfl, h1, h2, h3, h4, h5, h6⟩ := passJoin_ok h
      simp only [upd, if_true, reset] at h5 h6
      exact .joinTake s w f k vs hpc h5 hc.1 (wkEmpty_iff.1 hc.2.1) (isTop_iff.1 hc.2.2) h6
    · cases h
  | finPop p c =>
    rw [hpc] at h
    simp only [finPop] at h
    cases hq : s.q w with
    | nil =>
      rw [hq] at h
      simp only at h
      split at h
      · rename_i hc
        cases h
        exact .popMiss s w p c hpc hq fun e => by rw [← e]; exact isTop_iff.1 (hc.2 e)
      · cases h
    | cons e r =>
      rw [hq] at h
      simp only at h
      split at h
      · rename_i hc
        cases h
        obtain ⟨p', c'⟩ := e
        obtain ⟨rfl, _⟩ := hc
        exact .popHit s w _ c c' r hpc hq
      · cases h
  | finDec p c same =>
    rw [hpc] at h
    simp only [finDec] at h
    split at h
    · split at h
      · rename_i h0; cases h; exact .decWin s w p c same hpc h0
      · rename_i h0; cases h; exact .decLose s w p c same hpc h0
    · cases h
  | finWin p same =>
    rw [hpc] at h
    simp only [finWin] at h
    split at h
    · cases same with
      | true =>
        simp only [if_true] at h
        obtain ⟨k, vs, rfl, h1, h2, h3, h4, h5, h6⟩ := passJoin_ok h
        simp only [upd, if_true, reset] at h3 h5 h6
        have := Step.finWin (P := P) s w p true k vs hpc h5 h6 (fun _ => h3) (by simp) ⟨rfl, h4.2⟩
        simpa using this
      | false =>
        simp only [Bool.false_eq_true, if_false] at h
        split at h
        · rename_i hc
          obtain ⟨k, vs, rfl, h1, h2, h3, h4, h5, h6⟩ := passJoin_ok h
          simp only [upd, if_true, reset] at h3 h5 h6
          have := Step.finWin (P := P) s w p false k vs hpc h5 h6 (by simp) (fun _ => wkEmpty_iff.1 hc.1) ⟨rfl, h4.2⟩
          simpa using this
        · cases h
    · cases h
  | finLose same =>
    rw [hpc] at h
    simp only [finLose] at h
    by_cases hc : (if same = true then release s w else s).wkEmpty w = true ∧ (if same = true then release s w else s).q w = []
    · rw [if_pos hc] at h
      cases h
      refine .finLose s w same hpc (fun e => ?_) ?_
      · subst e; exact wkEmpty_iff.1 hc.1
      · cases same <;> exact hc.2
    · rw [if_neg hc] at h; cases h
  | selfSteal =>
    rw [hpc] at h
    simp only [selfSteal] at h
    cases hq : s.q w with
    | nil =>
      rw [hq] at h
      simp only at h
      split at h
      · rename_i hc; cases h; exact .selfNone s w hpc hq (wkEmpty_iff.1 hc)
      · cases h
    | cons e r =>
      rw [hq] at h
      cases h
      exact .selfSteal s w e.1 e.2 r hpc hq
  | stole p =>
    rw [hpc] at h
    simp only [stole] at h
    split at h
    · cases h; exact .stole s w p hpc
    · cases h
  | switchRel z =>
    rw [hpc] at h
    simp only [switchRel] at h
    by_cases hc : (if z = true then release s w else s).wkEmpty w = true
    · rw [if_pos hc] at h
      cases h
      refine .switchRel s w z hpc fun e => ?_
      subst e; exact wkEmpty_iff.1 hc
    · rw [if_neg hc] at h; cases h

end Verif.Runtime
