import Verif.Par.Foot
import Verif.Algo.LangLemmas

/-! What the tasks of the algorithms do when one thread runs them is what the programs of Verif.Algo.Lang do. -/
namespace Verif.Par
open Verif.Algo (Cmd Out Run JoinOut upd)
open Verif.Mem (SerM put)
open Verif.Exn (errs oks)

variable {L V E : Type} [DecidableEq L]

/-- The programs one after the other. -/
inductive RunL : List (Cmd L V E) → (L → V) → Out E → (L → V) → Prop where
  | nil {m} : RunL [] m .ok m
  | ok {p k m m1 o m2} : Run p m .ok m1 → RunL k m1 o m2 → RunL (p :: k) m o m2
  | stop {p k m m1 o} : Run p m o m1 → o ≠ .ok → RunL (p :: k) m o m1

/-- The outcome that a result stands for. -/
def outE : Dat V E → Out E
  | .val _ => .ub
  | .exn e => .exn e
  | .ub => .ub

def out : Except (Dat V E) Unit → Out E
  | .ok () => .ok
  | .error d => outE d

theorem run_total (p : Cmd L V E) (m : L → V) : ∃ o m', Run p m o m' := by
  induction p generalizing m with
  | halt o => exact ⟨_, _, .halt⟩
  | atom w k rs f =>
    cases h : f (fun i => m (rs i)) with
    | ok v => exact ⟨_, _, .atomOk h⟩
    | error e => exact ⟨_, _, .atomErr h⟩
  | seq p q ihp ihq =>
    obtain ⟨o, m1, h1⟩ := ihp m
    by_cases ho : o = .ok
    · subst ho
      obtain ⟨o2, m2, h2⟩ := ihq m1
      exact ⟨_, _, .seqOk h1 h2⟩
    · exact ⟨_, _, .seqAbort h1 ho⟩
  | par p q ihp ihq =>
    obtain ⟨o, m1, h1⟩ := ihp m
    obtain ⟨o2, m2, h2⟩ := ihq m1
    obtain ⟨oj, hj⟩ := Algo.joinOut_exists o o2
    exact ⟨_, _, .par h1 h2 hj⟩

/-- The value of a piece of user code. -/
def Rd.eval : Rd L V E → (L → V) → Except E V
  | .done x, _ => x
  | .ask l g, m => (g (m l)).eval m

omit [DecidableEq L] in
theorem rdOf_eval (n : Nat) (rs : Fin n → L) (f : (Fin n → V) → Except E V) (m : L → V) : (rdOf n rs f).eval m = f (fun i => m (rs i)) := by
  induction n with
  | zero =>
    show f _ = f _
    congr 1
    funext i
    exact i.elim0
  | succ n ih =>
    show (rdOf n _ _).eval m = _
    rw [ih]
    congr 1
    funext i
    cases i using Fin.cases <;> rfl

/-- What is done after a join that found `oj`. -/
def After (oj : Out E) (k : List (Cmd L V E)) (m : L → V) (o : Out E) (m' : L → V) : Prop :=
  (oj = .ok ∧ RunL k m o m') ∨ (oj ≠ .ok ∧ o = oj ∧ m' = m)

/-- What the program does from a state, if the forked child had the outcome `o1` and the callee `o2`. -/
def Sem (o1 o2 : Out E) : T L V E → (L → V) → Out E → (L → V) → Prop
  | .ret, m, o, m' => o = .ok ∧ m' = m
  | .fail d, m, o, m' => o = outE d ∧ m' = m
  | .read w l g k, m, o, m' => (∃ v, (Rd.ask l g).eval m = .ok v ∧ RunL k (upd m w v) o m') ∨ ∃ e, (Rd.ask l g).eval m = .error e ∧ o = .exn e ∧ m' = m
  | .write w v k, m, o, m' => RunL k (upd m w v) o m'
  | .par p q k, m, o, m' => RunL (.par p q :: k) m o m'
  | .forked q k, m, o, m' => ∃ o2 m1 oj, Run q m o2 m1 ∧ JoinOut o1 o2 oj ∧ After oj k m1 o m'
  | .atJoin k, m, o, m' => ∃ oj, JoinOut o1 o2 oj ∧ After oj k m o m'
  | .stash _, _, _, _ => False

theorem sem_rd {o1 o2 : Out E} {w : L} {r : Rd L V E} {k : List (Cmd L V E)} {m m' : L → V} {o : Out E} (h : Sem o1 o2 (rd w r k) m o m') :
    (∃ v, r.eval m = .ok v ∧ RunL k (upd m w v) o m') ∨ ∃ e, r.eval m = .error e ∧ o = .exn e ∧ m' = m := by
  rcases r with (e | v) | ⟨l, g⟩
  · exact Or.inr ⟨e, rfl, h⟩
  · exact Or.inl ⟨v, rfl, h⟩
  · exact h

theorem sem_next {o1 o2 : Out E} {k : List (Cmd L V E)} {m m' : L → V} {o : Out E} (h : Sem o1 o2 (next k) m o m') : RunL k m o m' := by
  induction k using next_ind generalizing m o m' with
  | case1 => obtain ⟨rfl, rfl⟩ := h; exact .nil
  | case2 k ih => exact .ok .halt (ih h)
  | case3 e k => obtain ⟨rfl, rfl⟩ := h; exact .stop .halt (fun h => nomatch h)
  | case4 k => obtain ⟨rfl, rfl⟩ := h; exact .stop .halt (fun h => nomatch h)
  | case5 w n rs f k =>
    rcases sem_rd h with ⟨v, h1, h2⟩ | ⟨e, h1, rfl, rfl⟩
    · rw [rdOf_eval] at h1; exact .ok (.atomOk h1) h2
    · rw [rdOf_eval] at h1; exact .stop (.atomErr h1) (fun h => nomatch h)
  | case6 p q k ih =>
    cases ih h with
    | ok h1 h2 =>
      cases h2 with
      | ok h2 h3 => exact .ok (.seqOk h1 h2) h3
      | stop h2 h3 => exact .stop (.seqOk h1 h2) h3
    | stop h1 h2 => exact .stop (.seqAbort h1 h2) h2
  | case7 p q k => exact h

theorem runL_one {p : Cmd L V E} {m m' : L → V} {o : Out E} (h : RunL [p] m o m') : Run p m o m' := by
  cases h with
  | ok h1 h2 => cases h2; exact h1
  | stop h1 h2 => exact h1

theorem after_of {p q : Cmd L V E} {k : List (Cmd L V E)} {m m1 m2 m' : L → V} {o1 o2 oj o : Out E} (h1 : Run p m o1 m1) (h2 : Run q m1 o2 m2)
    (h3 : JoinOut o1 o2 oj) (h4 : After oj k m2 o m') : RunL (.par p q :: k) m o m' := by
  rcases h4 with ⟨rfl, h4⟩ | ⟨h4, rfl, rfl⟩
  · exact .ok (.par h1 h2 h3) h4
  · exact .stop (.par h1 h2 h3) h4

theorem put_vals (m : L → V) (w : L) (v : V) : put (vals m : L → Dat V E) w (.val v) = vals (upd m w v) := by
  funext l
  simp only [put, vals, upd]
  split <;> rfl

/-- The alternatives: a run of the program; something could not be allocated, and an exception is thrown; or the program may fail an assertion. -/
def Alt (may : Dat V E → Prop) (S : Out E → (L → V) → Prop) (r : Except (Dat V E) Unit) (m' : L → V) : Prop :=
  S (out r) m' ∨ ((∃ e, may e) ∧ ∃ e, r = .error e) ∨ ∃ m'', S .ub m''

omit [DecidableEq L] in
theorem Alt.map {may : Dat V E → Prop} {S S' : Out E → (L → V) → Prop} {r : Except (Dat V E) Unit} {m' : L → V} (h : Alt may S r m')
    (h1 : ∀ o m', S o m' → S' o m') : Alt may S' r m' := by
  rcases h with h | h | ⟨m, h⟩
  · exact Or.inl (h1 _ _ h)
  · exact Or.inr (Or.inl h)
  · exact Or.inr (Or.inr ⟨m, h1 _ _ h⟩)

/-- The induction hypothesis. -/
def Post (may : Dat V E → Prop) (x : T L V E) (rs : List (Except (Dat V E) Unit)) (es : List (Dat V E)) (m : L → V) (r : Except (Dat V E) Unit) (m' : L → V) : Prop :=
  match x with
  | .forked _ _ => ∀ c, rs = [c] → es = [] → out c ≠ .ub → Alt may (Sem (out c) .ok x m) r m'
  | .atJoin _ => ∀ c o2, rs = [c] → out c ≠ .ub → ((es = [] ∧ o2 = .ok) ∨ ∃ e, es = [e] ∧ o2 = outE e) → o2 ≠ .ub → Alt may (Sem (out c) o2 x m) r m'
  | .stash _ => True
  | x => rs = [] → es = [] → Alt may (Sem .ok .ok x m) r m'

/-- A task that has failed throws. -/
theorem ser_fail {may : Dat V E → Prop} {d : Dat V E} {rs es M r M'} (h : SerM (body : T L V E → _) may (.fail d) rs es M r M') : r = .error d ∧ M' = M := by
  cases h with
  | throw h => cases h; exact ⟨rfl, rfl⟩
  | ret h | fork _ h | call h | callThrew h | join h | rethrow h | switch h | forkFails _ _ h | callFails _ _ h | switchFails _ _ h | load h | store h => cases h

theorem ser_stash {may : Dat V E → Prop} {d : Dat V E} {rs es M r M'} (h : SerM (body : T L V E → _) may (.stash d) rs es M r M') :
    (∃ e, r = .error e) ∧ M' = M := by
  cases h with
  | join h _ h2 => cases h; obtain ⟨e1, e2⟩ := ser_fail h2; exact ⟨⟨_, e1⟩, e2⟩
  | rethrow h _ h2 => cases h; obtain ⟨e1, e2⟩ := ser_fail h2; exact ⟨⟨_, e1⟩, e2⟩
  | ret h | throw h | fork _ h | call h | callThrew h | switch h | forkFails _ _ h | callFails _ _ h | switchFails _ _ h | load h | store h => cases h

/-- So does one whose children or callees threw. -/
theorem ser_atJoin {may : Dat V E → Prop} {k : List (Cmd L V E)} {rs es M r M'} (h : SerM (body : T L V E → _) may (.atJoin k) rs es M r M')
    (he : errs rs ++ es ≠ []) : ∃ e, r = .error e := by
  cases h with
  | join h h1 h2 => rw [h1] at he; exact absurd rfl he
  | rethrow h _ h2 => cases h; obtain ⟨e1, e2⟩ := ser_fail h2; exact ⟨_, e1⟩
  | ret h | throw h | fork _ h | call h | callThrew h | switch h | forkFails _ _ h | callFails _ _ h | switchFails _ _ h | load h | store h => cases h

theorem ser_forked {may : Dat V E → Prop} {q : Cmd L V E} {k : List (Cmd L V E)} {rs es M r M'} (h : SerM (body : T L V E → _) may (.forked q k) rs es M r M')
    (he : errs rs ++ es ≠ []) : ∃ e, r = .error e := by
  cases h with
  | call h _ h2 => cases h; exact ser_atJoin h2 he
  | callThrew h _ h2 => cases h; exact ser_atJoin h2 (by simp)
  | callFails _ _ h h2 => cases h; exact (ser_stash h2).1
  | ret h | throw h | fork _ h | switch h | forkFails _ _ h | join h | rethrow h | switchFails _ _ h | load h | store h => cases h

theorem sem_task {may : Dat V E → Prop} {p : Cmd L V E} {m m' : L → V} {r : Except (Dat V E) Unit} (h : Post may (task p) [] [] m r m') : Alt may (Run p m) r m' := by
  have hn := next_pend [p]
  have h' : Alt may (Sem .ok .ok (task p) m) r m' := by
    unfold task at h ⊢
    cases hx : next [p] with
    | forked q k => rw [hx] at hn; cases hn.1
    | atJoin k => rw [hx] at hn; cases hn.1
    | stash d => rw [hx] at hn; cases hn.1
    | _ => rw [hx] at h; exact h rfl rfl
  exact h'.map fun o m' h => runL_one (sem_next h)

theorem post_next {may : Dat V E → Prop} {k : List (Cmd L V E)} {m m' : L → V} {r : Except (Dat V E) Unit} (h : Post may (next k) [] [] m r m') :
    Alt may (RunL k m) r m' := by
  have hn := next_pend k
  have h' : Alt may (Sem .ok .ok (next k) m) r m' := by
    cases hx : next k with
    | forked q k => rw [hx] at hn; cases hn.1
    | atJoin k => rw [hx] at hn; cases hn.1
    | stash d => rw [hx] at hn; cases hn.1
    | _ => rw [hx] at h; exact h rfl rfl
  exact h'.map fun o m' h => sem_next h

theorem post_rd {may : Dat V E → Prop} {w : L} {rd' : Rd L V E} {k : List (Cmd L V E)} {m m' : L → V} {r : Except (Dat V E) Unit}
    (h : Post may (rd w rd' k) [] [] m r m') :
    Alt may (fun o m' => (∃ v, rd'.eval m = .ok v ∧ RunL k (upd m w v) o m') ∨ ∃ e, rd'.eval m = .error e ∧ o = .exn e ∧ m' = m) r m' := by
  have h' : Alt may (Sem .ok .ok (rd w rd' k) m) r m' := by
    rcases rd' with (e | v) | ⟨l, g⟩ <;> exact h rfl rfl
  exact h'.map fun o m' h => sem_rd h

omit [DecidableEq L] in
theorem no_switch (x : T L V E) (d : Nat) (k : T L V E) (h : Dat V E → T L V E) : body x ≠ .switch d k h := by
  cases x <;> intro h <;> cases h

theorem join_left {e : Dat V E} {o2 : Out E} (hu : outE e ≠ .ub) (hv : o2 ≠ .ub) : JoinOut (outE e) o2 (outE e) := by
  cases e with
  | exn e =>
    cases o2 with
    | ub => exact absurd rfl hv
    | _ => constructor
  | _ => exact absurd rfl hu

theorem join_right {e : Dat V E} {o1 : Out E} (hu : o1 ≠ .ub) (hv : outE e ≠ .ub) : JoinOut o1 (outE e) (outE e) := by
  cases e with
  | exn e =>
    cases o1 with
    | ub => exact absurd rfl hu
    | ok => exact .right _
    | exn e1 => exact .both2 _ _
  | _ => exact absurd rfl hv

/-- One thread. -/
theorem ser {may : Dat V E → Prop} {x : T L V E} {rs es M r M'} (h : SerM body may x rs es M r M') (m : L → V) (hM : M = vals m) :
    ∃ m', M' = vals m' ∧ Post may x rs es m r m' := by
  induction h generalizing m with
  | ret hb =>
    rename_i x _ _ _ _
    refine ⟨m, hM, ?_⟩
    cases x <;> cases hb
    exact fun _ _ => Or.inl ⟨rfl, rfl⟩
  | throw hb =>
    rename_i x _ _ _ _
    refine ⟨m, hM, ?_⟩
    cases x <;> cases hb
    exact fun _ _ => Or.inl ⟨rfl, rfl⟩
  | fork b hb h1 h2 ih1 ih2 =>
    rename_i x _ _ _ _ _ _ _ _ _ _
    cases x <;> cases hb
    rename_i p q k
    obtain ⟨m1, rfl, p1⟩ := ih1 m hM
    obtain ⟨m2, rfl, p2⟩ := ih2 m1 rfl
    refine ⟨m2, rfl, ?_⟩
    rintro rfl rfl
    rcases sem_task p1 with a | ⟨a, e, rfl⟩ | ⟨m'', a⟩
    · rename_i y _
      by_cases hu : out y = .ub
      · rw [hu] at a
        obtain ⟨o2, m3, a2⟩ := run_total q m1
        exact Or.inr (Or.inr ⟨m3, .stop (.par a a2 (.ubL _)) (fun h => nomatch h)⟩)
      · refine (p2 y rfl rfl hu).map ?_
        rintro o m' ⟨o2, m3, oj, h1, h2, h3⟩
        exact after_of a h1 h2 h3
    · exact Or.inr (Or.inl ⟨a, ser_forked h2 (by simp [errs])⟩)
    · obtain ⟨o2, m3, a2⟩ := run_total q m''
      exact Or.inr (Or.inr ⟨m3, .stop (.par a a2 (.ubL _)) (fun h => nomatch h)⟩)
  | call hb h1 h2 ih1 ih2 =>
    rename_i x _ _ _ _ _ _ _ _ _ _
    cases x <;> cases hb
    rename_i q k
    obtain ⟨m1, rfl, p1⟩ := ih1 m hM
    obtain ⟨m2, rfl, p2⟩ := ih2 m1 rfl
    refine ⟨m2, rfl, ?_⟩
    rintro c rfl rfl hu
    rcases sem_task p1 with a | ⟨a, e, h⟩ | ⟨m'', a⟩
    · refine (p2 c .ok rfl hu (Or.inl ⟨rfl, rfl⟩) (fun h => nomatch h)).map ?_
      rintro o m' ⟨oj, h2, h3⟩
      exact ⟨_, _, _, a, h2, h3⟩
    · cases h
    · exact Or.inr (Or.inr ⟨m'', _, _, _, a, .ubR _, Or.inr ⟨(fun h => nomatch h), rfl, rfl⟩⟩)
  | callThrew hb h1 h2 ih1 ih2 =>
    rename_i x _ _ _ _ _ _ _ _ e _
    cases x <;> cases hb
    rename_i q k
    obtain ⟨m1, rfl, p1⟩ := ih1 m hM
    obtain ⟨m2, rfl, p2⟩ := ih2 m1 rfl
    refine ⟨m2, rfl, ?_⟩
    rintro c rfl rfl hu
    rcases sem_task p1 with a | ⟨a, _, h⟩ | ⟨m'', a⟩
    · by_cases hv : outE e = .ub
      · change Run q m (outE e) m1 at a
        rw [hv] at a
        exact Or.inr (Or.inr ⟨m1, _, _, _, a, .ubR _, Or.inr ⟨(fun h => nomatch h), rfl, rfl⟩⟩)
      · refine (p2 c (outE e) rfl hu (Or.inr ⟨e, rfl, rfl⟩) hv).map ?_
        rintro o m' ⟨oj, h2, h3⟩
        exact ⟨_, _, _, a, h2, h3⟩
    · exact Or.inr (Or.inl ⟨a, ser_atJoin h2 (by simp)⟩)
    · exact Or.inr (Or.inr ⟨m'', _, _, _, a, .ubR _, Or.inr ⟨(fun h => nomatch h), rfl, rfl⟩⟩)
  | join hb he h2 ih2 =>
    rename_i x _ _ _ _ _ _
    obtain ⟨m2, rfl, p2⟩ := ih2 m hM
    refine ⟨m2, rfl, ?_⟩
    cases x <;> cases hb
    · rename_i k
      rintro c o2 rfl hu h3 _
      rcases h3 with ⟨_, rfl⟩ | ⟨_, h3, _⟩
      · cases c with
        | error e => cases he
        | ok u =>
          refine (post_next p2).map fun o m' h => ?_
          exact ⟨_, .ok, Or.inl ⟨rfl, h⟩⟩
      · cases h3
    · trivial
  | rethrow hb he h2 ih2 =>
    rename_i x _ _ rs es _ e _ _
    obtain ⟨m2, rfl, p2⟩ := ih2 m hM
    refine ⟨m2, rfl, ?_⟩
    cases x <;> cases hb
    · rename_i k
      rintro c o2 rfl hu h3 hv
      obtain ⟨rfl, hm⟩ := ser_fail h2
      have hm : m2 = m := by
        funext l
        have := congrFun hm l
        rw [hM] at this
        simpa [vals] using this
      subst hm
      refine Or.inl ?_
      have hj : JoinOut (out c) o2 (outE e) := by
        rcases List.mem_append.1 he with he | he
        · cases c with
          | ok u => cases he
          | error d =>
            have : e = d := by simpa [errs] using he
            subst this
            exact join_left hu hv
        · rcases h3 with ⟨h3, _⟩ | ⟨e', h3, rfl⟩
          · rw [h3] at he; cases he
          · rw [h3] at he
            cases List.mem_singleton.1 he
            exact join_right hu hv
      exact ⟨_, hj, Or.inr ⟨by cases e <;> simp [outE], rfl, rfl⟩⟩
    · trivial
  | switch hb => exact absurd hb (no_switch _ _ _ _)
  | forkFails e hm hb h1 ih =>
    rename_i x _ _ _ _ _ _ _ _
    cases x <;> cases hb
    obtain ⟨m1, rfl, p1⟩ := ih m hM
    obtain ⟨rfl, h2⟩ := ser_fail h1
    exact ⟨m1, rfl, fun _ _ => Or.inr (Or.inl ⟨⟨e, hm⟩, _, rfl⟩)⟩
  | callFails e hm hb h1 ih =>
    rename_i x _ _ _ _ _ _ _ _
    cases x <;> cases hb
    obtain ⟨m1, rfl, p1⟩ := ih m hM
    obtain ⟨h2, _⟩ := ser_stash h1
    exact ⟨m1, rfl, fun _ _ _ _ => Or.inr (Or.inl ⟨⟨e, hm⟩, h2⟩)⟩
  | switchFails e _ hb => exact absurd hb (no_switch _ _ _ _)
  | load hb h1 ih =>
    rename_i x l _ rs es _ _ _
    subst hM
    obtain ⟨m1, rfl, p1⟩ := ih m rfl
    refine ⟨m1, rfl, ?_⟩
    cases x <;> cases hb
    rename_i w g k
    rintro rfl rfl
    have := post_rd (rd' := g (m l)) p1
    exact this
  | store hb h1 ih =>
    rename_i x l _ _ rs es _ _ _
    subst hM
    cases x <;> cases hb
    obtain ⟨m1, rfl, p1⟩ := ih _ (put_vals _ _ _)
    refine ⟨m1, rfl, ?_⟩
    rintro rfl rfl
    exact post_next p1

end Verif.Par
