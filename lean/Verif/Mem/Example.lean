import Verif.Mem.Determ
import Verif.Exn.Example
import Verif.Mem.FootReach

/-! A program with shared memory that meets the hypotheses of C61 and C62, two of its executions, and a program with a race, for which C62
does not hold. -/
namespace Verif.Mem
open Verif.Runtime (Res Ev Few)
open Verif.Exn (Choice)

/-- A task forks two tasks that write a cell each, joins, reads the cells and writes their sum to a third one. -/
inductive P where
  | main
  | m1
  | m2
  | m3
  | m4 (x : Nat)
  | m5 (x : Nat)
  | out (x : Nat)
  | leaf (i : Nat)
  | fin
  deriving DecidableEq

/-- The leaves write `10 * (i + 1)` to `cell i`. -/
def prog (cell : Nat → Nat) : P → Act P Nat Nat Nat
  | .main => .fork (.leaf 0) (fun _ => .m1) (fun _ => .main)
  | .m1 => .fork (.leaf 1) (fun _ => .m2) (fun _ => .m1)
  | .m2 => .join (fun _ => .m3) (fun _ _ => .m3)
  | .m3 => .load (cell 0) .m4
  | .m4 x => .load (cell 1) fun y => .m5 (x + y)
  | .m5 x => .store 2 x (.out x)
  | .out x => .ret x
  | .leaf i => .store (cell i) (10 * (i + 1)) .fin
  | .fin => .ret 0

def pPend : P → Nat
  | .m1 => 1
  | .m2 => 2
  | _ => 0

theorem prog_disc (cell : Nat → Nat) : Disc (prog cell) pPend (fun _ => False) where
  ret s v h := by cases s <;> simp only [prog] at h <;> cases h <;> exact ⟨rfl, id⟩
  throw s e h := by cases s <;> simp only [prog] at h <;> cases h
  fork s c k x h := by
    cases s <;> simp only [prog] at h <;> cases h
    · exact ⟨rfl, fun b => ⟨rfl, id⟩, fun e => ⟨rfl, id⟩⟩
    · exact ⟨rfl, fun b => ⟨rfl, id⟩, fun e => ⟨rfl, id⟩⟩
  call s c k x h := by cases s <;> simp only [prog] at h <;> cases h
  join s k x h := by
    cases s <;> simp only [prog] at h <;> cases h
    exact ⟨fun _ => rfl, fun _ _ => rfl⟩
  switch s d k x h := by cases s <;> simp only [prog] at h <;> cases h
  load s l k h := by cases s <;> simp only [prog] at h <;> cases h <;> exact fun d => ⟨rfl, id⟩
  store s l d k h := by cases s <;> simp only [prog] at h <;> cases h <;> exact ⟨rfl, id⟩

theorem prog_plain (cell : Nat → Nat) : Plain (prog cell) where
  throw s e h := by cases s <;> simp only [prog] at h <;> cases h
  fork s c k x h := by cases s <;> simp only [prog] at h <;> cases h <;> rfl

/-- What the tasks access. -/
def foot : Foot P Nat where
  I _ := True
  R | .main, l | .m1, l | .m2, l | .m3, l | .m4 _, l | .m5 _, l => l ≤ 2
    | .leaf i, l => l = i
    | _, _ => False
  W | .main, l | .m1, l => l ≤ 2
    | .m2, l | .m3, l | .m4 _, l | .m5 _, l => l = 2
    | .leaf i, l => l = i
    | _, _ => False
  Rj | .main, l => l ≤ 1
     | .m1, l => l = 1
     | .m3, l | .m4 _, l | .m5 _, l => l ≤ 2
     | .leaf i, l => l = i
     | _, _ => False
  Wj | .main, l => l ≤ 1
     | .m1, l => l = 1
     | .m3, l | .m4 _, l | .m5 _, l => l = 2
     | .leaf i, l => l = i
     | _, _ => False

/-- It keeps the rule if the tasks write different cells. -/
theorem foot_ok : foot.Ok (prog id) (fun _ => False) where
  load y l k _ h := by
    cases y <;> simp only [prog] at h <;> cases h
    · refine ⟨by simp [foot], by simp [foot], fun d => ⟨⟨trivial, ?_, ?_⟩, ?_, ?_⟩⟩ <;> intro l h <;> simp only [foot] at h ⊢ <;> omega
    · refine ⟨by simp [foot], by simp [foot], fun d => ⟨⟨trivial, ?_, ?_⟩, ?_, ?_⟩⟩ <;> intro l h <;> simp only [foot] at h ⊢ <;> omega
  store y l d k _ h := by
    cases y <;> simp only [prog] at h <;> cases h
    · refine ⟨by simp [foot], by simp [foot], by simp [foot], by simp [foot], ⟨trivial, ?_, ?_⟩, ?_, ?_⟩ <;> intro l h <;> simp only [foot] at h
    · refine ⟨by simp [foot], by simp [foot], by simp [foot], by simp [foot], ⟨trivial, ?_, ?_⟩, ?_, ?_⟩ <;> intro l h <;> simp only [foot] at h
  fork y c k x _ h := by
    cases y <;> simp only [prog] at h <;> cases h
    · refine ⟨⟨⟨trivial, ?_, ?_⟩, ?_, ?_⟩, fun b => ⟨⟨trivial, ?_, ?_⟩, ?_, ?_⟩, (fun e he => he.elim), ?_⟩
      all_goals intro l; simp [foot]; try omega
    · refine ⟨⟨⟨trivial, ?_, ?_⟩, ?_, ?_⟩, fun b => ⟨⟨trivial, ?_, ?_⟩, ?_, ?_⟩, (fun e he => he.elim), ?_⟩
      all_goals intro l; simp [foot]; try omega
  call y c k x _ h := by cases y <;> simp only [prog] at h <;> cases h
  join y k x _ h := by
    cases y <;> simp only [prog] at h <;> cases h
    refine ⟨fun _ => ⟨trivial, ?_, ?_⟩, fun _ _ => ⟨trivial, ?_, ?_⟩⟩ <;> intro l h <;> simp only [foot] at h ⊢ <;> omega
  switch y d k x _ h := by cases y <;> simp only [prog] at h <;> cases h

/-- The task may be submitted when no other is running. -/
def idle (O : P → Prop) (c : P) : Prop := c = .main ∧ ∀ c', ¬ O c'

theorem idle_pend (O : P → Prop) (c : P) (h : idle O c) : pPend c = 0 := by rw [h.1]; rfl
theorem idle_mono : Mono idle := fun _ _ h _ hc => ⟨hc.1, fun c' hO => hc.2 c' (h c' hO)⟩
theorem idle_roots : foot.Roots idle := fun _ _ h => ⟨trivial, fun c' hO => absurd hO (h.2 c')⟩

/-- The program has no races. -/
theorem prog_raceFree (m : Nat → Nat) : RaceFree (prog id) (fun _ => False) idle m := C62_footprint (prog_disc id) idle_pend foot_ok idle_roots

/-- A schedule: which worker takes a step, and the choice. -/
def exec (body : P → Act P Nat Nat Nat) : List (Nat × Choice Nat) → MS P Nat Nat Nat → Res (MS P Nat Nat Nat)
  | [], s => .ok s
  | (w, ch) :: l, s => Exn.Res.bind (step body w ch s) (exec body l)

theorem exec_reach {body : P → Act P Nat Nat Nat} {m : Nat → Nat} {l : List (Nat × Runtime.Choice)} {s s' : MS P Nat Nat Nat}
    (h : ReachAny body pPend (fun _ => False) idle m s) (he : exec body (l.map fun p => (p.1, .go p.2)) s = .ok s') :
    ReachAny body pPend (fun _ => False) idle m s' := by
  induction l generalizing s with
  | nil => cases he; exact h
  | cons a l ih =>
    simp only [List.map_cons, exec] at he
    cases hs : step body a.1 (.go a.2) s with
    | ok s1 => rw [hs] at he; exact ih (h.step (ch := .go a.2) trivial hs) he
    | ub => rw [hs] at he; cases he
    | no => rw [hs] at he; cases he

abbrev t (w : Nat) : Nat × Runtime.Choice := (w, .take)

def sub (m : Nat → Nat) : MS P Nat Nat Nat := submit (MS.start .main m) .main 0

/-- Worker 0 runs everything. -/
def alone : List (Nat × Runtime.Choice) := List.replicate 14 (t 0)

/-- Worker 1 steals the task while worker 0 has not yet run the first leaf, and runs the second leaf first. -/
def stolen : List (Nat × Runtime.Choice) :=
  [t 0, t 0, (1, .steal 0), t 1, t 1, t 1, t 1, t 1, t 1, t 1, t 1, t 0, t 0, t 0, t 0, t 0, t 0, t 0, t 0, t 0]

def after (body : P → Act P Nat Nat Nat) (l : List (Nat × Runtime.Choice)) : Option (MS P Nat Nat Nat) :=
  Exn.get? (exec body (l.map fun p => (p.1, .go p.2)) (sub fun _ => 0))

theorem alone_log : (after (prog id) alone).map (fun s => (s.x.c.log, s.hist)) = some
    ([.done 0 (.ok 30), .resume 0 0, .suspend 0 .join, .resume 0 0, .done 2 (.ok 0), .resume 2 0, .suspend 0 (.fork 2), .resume 0 0, .done 1 (.ok 0),
      .resume 1 0, .suspend 0 (.fork 1), .resume 0 0, .submit 0 .main 0],
    [.store 0 2 30, .load 0 1 20, .load 0 0 10, .store 2 1 20, .store 1 0 10]) := rfl

theorem stolen_log : (after (prog id) stolen).map (fun s => (s.x.c.log, s.hist)) = some
    ([.done 0 (.ok 30), .resume 0 0, .done 1 (.ok 0), .suspend 0 .join, .resume 0 1, .done 2 (.ok 0), .resume 2 1, .suspend 0 (.fork 2), .resume 0 1,
      .resume 1 0, .suspend 0 (.fork 1), .resume 0 0, .submit 0 .main 0],
    [.store 0 2 30, .load 0 1 20, .load 0 0 10, .store 1 0 10, .store 2 1 20]) := rfl

theorem after_reach {cell : Nat → Nat} {l : List (Nat × Runtime.Choice)} {s : MS P Nat Nat Nat} (h : after (prog cell) l = some s) :
    Reach (prog cell) pPend (fun _ => False) idle (fun _ => 0) s ∧ Few s.x.c := by
  refine C61_bounded (prog_disc cell) (fun y => by cases y <;> simp [pPend]) (exec_reach ?_ (Exn.get_ok h))
  refine .submit 0 (.start _) rfl ⟨rfl, ?_⟩
  rintro c ⟨f, w, h1, _⟩
  cases h1

/-- All the tasks of such a history have ended. -/
theorem all_done {l : List (Ev P (Except Nat Nat))} {r : Except Nat Nat} (hs : subs l = [(0, .main)]) (hd : Ev.done 0 r ∈ l) :
    ∀ f c w, Ev.submit f c w ∈ l → ∃ r, Ev.done f r ∈ l := by
  intro f c w h
  have := mem_subs.2 ⟨w, h⟩
  rw [hs] at this
  cases List.mem_singleton.1 this
  exact ⟨r, hd⟩

/-- C62 on this program: whatever the schedule, once the task has ended with a result, this is 30, and the cells hold 10, 20 and 30. -/
theorem prog_outcome {s : MS P Nat Nat Nat} (h : Reach (prog id) pPend (fun _ => False) idle (fun _ => 0) s) (hs : subs s.x.c.log = [(0, .main)])
    {r : Except Nat Nat} (hd : Ev.done 0 r ∈ s.x.c.log) : s.m 0 = 10 ∧ s.m 1 = 20 ∧ s.m 2 = 30 ∧ Ev.done 0 (.ok 30) ∈ s.x.c.log := by
  obtain ⟨z, hz, e⟩ := Option.map_eq_some_iff.1 alone_log
  have hlog : z.x.c.log = _ := congrArg Prod.fst e
  have hm : (after (prog id) alone).map (fun s => (s.m 0, s.m 1, s.m 2)) = some (10, 20, 30) := rfl
  rw [hz] at hm
  simp only [Option.map_some, Option.some.injEq, Prod.mk.injEq] at hm
  have hzs : subs z.x.c.log = [(0, .main)] := by rw [hlog]; rfl
  have hzd : Ev.done 0 (.ok 30) ∈ z.x.c.log := by rw [hlog]; simp
  obtain ⟨e1, rs, e2, e3⟩ := C62_deterministic (prog_disc id) idle_pend idle_mono (prog_raceFree _) (prog_plain id) (after_reach hz).1 h
    (all_done hzs hzd) (all_done hs hd) (by rw [hs, hzs])
  rw [← e1]
  refine ⟨hm.1, hm.2.1, hm.2.2, ?_⟩
  rw [hzs] at e2 e3
  rw [hs] at e3
  match rs, e2 with
  | [x], _ =>
    obtain ⟨h1, h2⟩ := e3 0 _ _ x rfl rfl rfl
    have : x = .ok 30 := by rw [hlog] at h1; simpa using h1
    rw [this] at h2; exact h2

/-- It is met by both executions, whose accesses are in different order. -/
example : ∃ s s', Reach (prog id) pPend (fun _ => False) idle (fun _ => 0) s ∧ Reach (prog id) pPend (fun _ => False) idle (fun _ => 0) s' ∧
    subs s.x.c.log = [(0, .main)] ∧ subs s'.x.c.log = [(0, .main)] ∧ Ev.done 0 (.ok 30) ∈ s.x.c.log ∧ Ev.done 0 (.ok 30) ∈ s'.x.c.log ∧
    s.hist.getLast? = some (.store 1 0 10) ∧ s'.hist.getLast? = some (.store 2 1 20) := by
  obtain ⟨z, hz, e⟩ := Option.map_eq_some_iff.1 alone_log
  obtain ⟨z', hz', e'⟩ := Option.map_eq_some_iff.1 stolen_log
  have h1 : z.x.c.log = _ := congrArg Prod.fst e
  have h2 : z'.x.c.log = _ := congrArg Prod.fst e'
  have h3 : z.hist = _ := congrArg Prod.snd e
  have h4 : z'.hist = _ := congrArg Prod.snd e'
  exact ⟨z, z', (after_reach hz).1, (after_reach hz').1, by rw [h1]; rfl, by rw [h2]; rfl, by rw [h1]; simp, by rw [h2]; simp, by rw [h3]; rfl,
    by rw [h4]; rfl⟩

/-- If both leaves write the same cell there is a race, and the outcome depends on the schedule: what C62 asks for is needed. -/
theorem race_matters : ¬ RaceFree (prog fun _ => 0) (fun _ => False) idle (fun _ => 0) ∧
    ∃ s s', Reach (prog fun _ => 0) pPend (fun _ => False) idle (fun _ => 0) s ∧ Reach (prog fun _ => 0) pPend (fun _ => False) idle (fun _ => 0) s' ∧
      s.m 2 = 40 ∧ s'.m 2 = 20 ∧ Ev.done 0 (.ok 40) ∈ s.x.c.log ∧ Ev.done 0 (.ok 20) ∈ s'.x.c.log := by
  have a1 : (after (prog fun _ => 0) alone).map (fun s => (s.m 2, subs s.x.c.log, s.x.c.log.head?)) = some (40, [(0, .main)], some (.done 0 (.ok 40))) := rfl
  have a2 : (after (prog fun _ => 0) stolen).map (fun s => (s.m 2, subs s.x.c.log, s.x.c.log.head?)) = some (20, [(0, .main)], some (.done 0 (.ok 20))) := rfl
  obtain ⟨z, hz, e⟩ := Option.map_eq_some_iff.1 a1
  obtain ⟨z', hz', e'⟩ := Option.map_eq_some_iff.1 a2
  simp only [Prod.mk.injEq] at e e'
  have d1 := List.mem_of_head? e.2.2
  have d2 := List.mem_of_head? e'.2.2
  refine ⟨fun hrf => ?_, z, z', (after_reach hz).1, (after_reach hz').1, e.1, e'.1, d1, d2⟩
  obtain ⟨h1, _⟩ := C62_deterministic (prog_disc _) idle_pend idle_mono hrf (prog_plain _) (after_reach hz).1 (after_reach hz').1
    (all_done e.2.1 d1) (all_done e'.2.1 d2) (by rw [e.2.1, e'.2.1])
  have := congrFun h1 2
  rw [e.1, e'.1] at this
  cases this

end Verif.Mem
