import Verif.LazyPool.Exec
import Verif.Runtime.Example
import Verif.Whole.Props

/-! Running schedules of whole programs, to exhibit executions. -/
namespace Verif.Whole
open Verif.Runtime (State Res Ev Act)
open Verif.LazyPool (Cfg St)
open Verif.EventCount (upd upd_same upd_ne upd_apply P32)
variable {σ V : Type}

def Caller.isBack : Caller V → Bool
  | .back _ => true
  | _ => false

def Caller.isPicking : Caller V → Bool
  | .picking => true
  | _ => false

/-- The value of a task that has returned. -/
def valOf (f : Nat) : List (Ev σ V) → Option V
  | [] => none
  | .done g v :: l => if g = f then some v else valOf f l
  | _ :: l => valOf f l

theorem valOf_mem {f : Nat} {v : V} {l : List (Ev σ V)} (h : valOf f l = some v) : Ev.done f v ∈ l := by
  induction l with
  | nil => cases h
  | cons e l ih =>
    cases e with
    | done g u =>
      simp only [valOf] at h
      split at h
      · subst_vars; cases h; exact List.mem_cons_self ..
      · exact List.mem_cons_of_mem _ (ih h)
    | _ => exact List.mem_cons_of_mem _ (ih h)

variable (c : Cfg) (body : σ → Act σ V) (K : Nat) (root : Nat → σ)

/-- A step of the runtime inside `resume`. -/
def fireWork (s : W σ V) (w : Nat) : Option (W σ V) :=
  match s.r.pc w with
  | .idle =>
    match s.l.hand w with
    | j :: js => (Runtime.step body w .take s.rt).get?.map fun r => { s with l := started s w j js, r := r }
    | [] => some { s with l := s.l.go w .deact }
  | .run f =>
    match body (s.r.fr f).st with
    | .switch d _ =>
      if d < c.N then
        (Runtime.step body w .take s.rt).get?.map fun r => { push { s with r := r } d f with out := upd s.out w (some s.nj) }
      else none
    | _ => (Runtime.step body w .take s.rt).get?.map fun r => { s with r := r }
  | _ => (Runtime.step body w .take s.rt).get?.map fun r => { s with r := r }

/-- A step of the actor; `k` is the worker picked by a caller, or one more than the victim of a theft. -/
def fire (e : Actor × Nat) (s : W σ V) : Option (W σ V) :=
  match e.1 with
  | .worker w =>
    if w < c.N then
      match s.out w with
      | some j => (LazyPool.fire c s.l e.2 (.submit j)).map fun l =>
          { s with l := l, out := if l.call j = .returned then upd s.out w none else s.out }
      | none =>
        if s.l.pc w = .work then fireWork c body s w
        else if s.l.pc w = .steal then
          if e.2 = 0 then some { s with l := s.l.go w .prep }
          else if e.2 - 1 < c.N then
            (Runtime.step body w (.steal (e.2 - 1)) s.rt).get?.map fun r => { s with l := s.l.go w .tws1, r := r }
          else none
        else (LazyPool.fire c s.l e.2 (.worker w)).map fun l => { s with l := l }
    else none
  | .caller i =>
    if i < K then
      match s.caller i with
      | .before => if (List.range K).all fun k => !(s.caller k).isPicking then some { s with caller := upd s.caller i .picking } else none
      | .picking =>
        if e.2 < c.N then
          some { push { s with r := Runtime.submit s.rt (root i) e.2 } e.2 s.r.nf with caller := upd s.caller i (.calling s.nj s.r.nf) }
        else none
      | .calling j f => (LazyPool.fire c s.l e.2 (.submit j)).map fun l =>
          { s with l := l, caller := if l.call j = .returned then upd s.caller i (.waiting f) else s.caller }
      | .waiting f => (valOf f s.r.log).map fun v => { s with caller := upd s.caller i (.back v) }
      | .back _ => none
    else none
  | .dtor =>
    if (List.range K).all fun i => (s.caller i).isBack then (LazyPool.fire c s.l e.2 .dtor).map fun l => { s with l := l } else none

theorem get_map {α β : Type} {r : Res α} {f : α → β} {b : β} (h : r.get?.map f = some b) : Res.map f r = .ok b := by
  cases r <;> simp [Runtime.Res.get?] at h
  · rw [← h]; rfl

variable {c body K root}

theorem fire_step (e : Actor × Nat) (s s' : W σ V) (h : fire c body K root e s = some s') : Step c body K root e.1 s (.ok s') := by
  obtain ⟨a, k⟩ := e
  cases a with
  | worker w =>
    simp only [fire] at h
    split at h
    rotate_left
    · cases h
    rename_i hw
    split at h
    · rename_i j ho
      obtain ⟨l, hl, rfl⟩ := Option.map_eq_some_iff.1 h
      exact .notify s w j l hw ho (LazyPool.fire_step hl)
    · rename_i ho
      split at h
      · rename_i hp
        simp only [fireWork] at h
        split at h
        · rename_i hi
          split at h
          · rename_i j js hj
            have := Step.take (c := c) (body := body) (K := K) (root := root) s w j js hw hp hi hj
            rw [get_map h] at this; exact this
          · rename_i hj
            cases h; exact .worked s w hw hp hi hj
        · rename_i f hi
          split at h
          · rename_i d k' hb
            split at h
            rotate_left
            · cases h
            rename_i hd
            have := Step.switch (c := c) (body := body) (K := K) (root := root) s w f d k' hw hp ho ⟨hi, hb⟩
            rw [if_pos hd, get_map h] at this; exact this
          · rename_i hb
            have := Step.work (c := c) (body := body) (K := K) (root := root) s w hw hp (by rw [hi]; simp) ho (by
              intro g d k' ⟨h1, h2⟩
              rw [hi] at h1; cases h1
              exact hb d k' h2)
            rw [get_map h] at this; exact this
        · rename_i hi1 hi2
          have := Step.work (c := c) (body := body) (K := K) (root := root) s w hw hp hi1 ho (by
            intro g d k' ⟨h1, h2⟩
            exact hi2 g h1)
          rw [get_map h] at this; exact this
      · rename_i hp
        split at h
        · rename_i hs
          split at h
          · cases h; exact .noSteal s w hw hs
          · split at h
            rotate_left
            · cases h
            rename_i hv
            have hm := get_map h
            have := Step.stole (c := c) (body := body) (K := K) (root := root) s w (k - 1) hw hv hs (by
              intro e
              rw [e] at hm; cases hm)
            rw [hm] at this; exact this
        · rename_i hs
          obtain ⟨l, hl, rfl⟩ := Option.map_eq_some_iff.1 h
          exact .pool s w l hs hp (LazyPool.fire_step hl)
  | caller i =>
    simp only [fire] at h
    split at h
    rotate_left
    · cases h
    rename_i hi
    split at h <;> rename_i hx
    · split at h
      rotate_left
      · cases h
      rename_i ha
      cases h
      refine .begin s i hi hx fun k hk e => ?_
      have := List.all_eq_true.1 ha k (List.mem_range.2 hk)
      rw [e] at this; cases this
    · split at h
      rotate_left
      · cases h
      rename_i hk
      cases h
      exact .submit s i k hi hx hk
    · obtain ⟨l, hl, rfl⟩ := Option.map_eq_some_iff.1 h
      exact .call s i _ _ l hi hx (LazyPool.fire_step hl)
    · obtain ⟨v, hv, rfl⟩ := Option.map_eq_some_iff.1 h
      exact .get s i _ v hi hx (valOf_mem hv)
    · cases h
  | dtor =>
    simp only [fire] at h
    split at h
    rotate_left
    · cases h
    rename_i ha
    obtain ⟨l, hl, rfl⟩ := Option.map_eq_some_iff.1 h
    refine .dtor s l (fun i hi => ?_) (LazyPool.fire_step hl)
    have := List.all_eq_true.1 ha i (List.mem_range.2 hi)
    cases hx : s.caller i with
    | back v => exact ⟨v, rfl⟩
    | _ => rw [hx] at this; cases this

variable (c body K root)

/-- A script, followed by silence. -/
def Script.run (x : σ) (script : List (Actor × Nat)) : Fair.Run (system c body K root) :=
  Fair.Script.run (S := system c body K root) (fire c body K root) (fun e => e.1) fire_step (s0 := W.start c x) ⟨x, rfl⟩ script

/-- The state after a script. -/
def fin (x : σ) (script : List (Actor × Nat)) : W σ V := script.foldl (Fair.tick (fire c body K root)) (W.start c x)

variable {c body K root}

theorem run_n (hc : c.Ok) {pend : σ → Nat} (hroot : ∀ i, i < K → pend (root i) = 0) (x : σ) (script : List (Actor × Nat)) (hl : script.length < P32) (t : Nat) :
    Reach c body K root ((Script.run c body K root x script).st t) ∧ ∀ i, ((Script.run c body K root x script).st t).l.n i ≤ min t script.length := by
  induction t with
  | zero => exact ⟨.start x, fun i => Nat.zero_le _⟩
  | succ t ih =>
    obtain ⟨h1, h2⟩ := ih
    have hfew : LazyPool.Few c ((Script.run c body K root x script).st t).l := fun w _ _ => by have := h2 (c.dom w); omega
    have he := Fair.play_succ (fire c body K root) (W.start c x) script t
    rcases (Script.run c body K root x script).next t with ⟨_, e⟩ | ⟨a, hw, st⟩
    · rw [e]; exact ⟨h1, fun i => by have := h2 i; omega⟩
    · refine ⟨h1.step hfew st, fun i => ?_⟩
      have hlt : t < script.length := by
        apply Classical.byContradiction
        intro hn
        have : script[t]? = none := List.getElem?_eq_none (by omega)
        simp only [Script.run, Fair.Script.run, this] at hw
        cases hw
      have hlb := lab_step (reach_inv (pend := pend) hc hroot h1).sync st
      have h3 := h2 i
      cases hb : lab body ((Script.run c body K root x script).st t) a with
      | none =>
        rw [hb] at hlb
        have hlb : ((Script.run c body K root x script).st (t + 1)).l = ((Script.run c body K root x script).st t).l := hlb
        rw [hlb]; omega
      | some b =>
        rw [hb] at hlb
        have := LazyPool.n_step hlb i
        omega

theorem run_few (hc : c.Ok) {pend : σ → Nat} (hroot : ∀ i, i < K → pend (root i) = 0) (x : σ) (script : List (Actor × Nat)) (hl : script.length < P32) (t : Nat) :
    LazyPool.Few c ((Script.run c body K root x script).st t).l := fun w _ _ => by
  have := (run_n (body := body) hc hroot x script hl t).2 (c.dom w)
  omega

end Verif.Whole
