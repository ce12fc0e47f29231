import Verif.Exn.Example
import Verif.LazyPool.Exec
import Verif.Whole.Exec
import Verif.WholeX.Props

/-! Running schedules of whole programs with exceptions, to exhibit executions. -/
namespace Verif.WholeX
open Verif.Runtime (Res Ev)
open Verif.LazyPool (Cfg St)
open Verif.EventCount (upd upd_same upd_ne upd_apply P32)
open Verif.Exn (XS Act Choice Allowed get? get_ok)
open Verif.Whole (Caller Actor Res.map valOf valOf_mem map_ok)
variable {σ V E : Type}

/-- Who takes a step; which worker a caller picks, or one more than the victim of a theft; what happens in a task. -/
structure Move (E : Type) where
  a : Actor
  k : Nat := 0
  ch : Choice E := .go .take

def isGo : Choice E → Bool
  | .go _ => true
  | _ => false

variable (c : Cfg) (body : σ → Act σ V E) (K : Nat) (root : Nat → σ)

/-- A step of the runtime inside `resume`. -/
def fireWork (ch : Choice E) (s : X σ V E) (w : Nat) : Option (X σ V E) :=
  match s.x.c.pc w with
  | .idle =>
    match s.l.hand w with
    | j :: js => (get? (Exn.step body w (.go .take) s.xt)).map fun x => { s with l := started s w j js, x := x }
    | [] => some { s with l := s.l.go w .deact }
  | .run f =>
    match body (s.x.c.fr f).st with
    | .switch d _ _ =>
      if isGo ch then
        if d < c.N then
          (get? (Exn.step body w (.go .take) s.xt)).map fun x => { push { s with x := x } d f with out := upd s.out w (some s.nj) }
        else none
      else (get? (Exn.step body w ch s.xt)).map fun x => { s with x := x }
    | _ => (get? (Exn.step body w ch s.xt)).map fun x => { s with x := x }
  | _ => (get? (Exn.step body w ch s.xt)).map fun x => { s with x := x }

/-- A step of the actor. -/
def fire (e : Move E) (s : X σ V E) : Option (X σ V E) :=
  match e.a with
  | .worker w =>
    if w < c.N then
      match s.out w with
      | some j => (LazyPool.fire c s.l e.k (.submit j)).map fun l =>
          { s with l := l, out := if l.call j = .returned then upd s.out w none else s.out }
      | none =>
        if s.l.pc w = .work then fireWork c body e.ch s w
        else if s.l.pc w = .steal then
          if e.k = 0 then some { s with l := s.l.go w .prep }
          else if e.k - 1 < c.N then
            (get? (Exn.step body w (.go (.steal (e.k - 1))) s.xt)).map fun x => { s with l := s.l.go w .tws1, x := x }
          else none
        else (LazyPool.fire c s.l e.k (.worker w)).map fun l => { s with l := l }
    else none
  | .caller i =>
    if i < K then
      match s.caller i with
      | .before => if (List.range K).all fun k => !(s.caller k).isPicking then some { s with caller := upd s.caller i .picking } else none
      | .picking =>
        if e.k < c.N then
          some { push { s with x := Exn.submit s.xt (root i) e.k } e.k s.x.c.nf with caller := upd s.caller i (.calling s.nj s.x.c.nf) }
        else none
      | .calling j f => (LazyPool.fire c s.l e.k (.submit j)).map fun l =>
          { s with l := l, caller := if l.call j = .returned then upd s.caller i (.waiting f) else s.caller }
      | .waiting f => (valOf f s.x.c.log).map fun v => { s with caller := upd s.caller i (.back v) }
      | .back _ => none
    else none
  | .dtor =>
    if (List.range K).all fun i => (s.caller i).isBack then (LazyPool.fire c s.l e.k .dtor).map fun l => { s with l := l } else none

theorem get_map {α β : Type} {r : Res α} {f : α → β} {b : β} (h : (get? r).map f = some b) : Res.map f r = .ok b := by
  cases r <;> simp [get?] at h
  · rw [← h]; rfl

variable {c body K root}

theorem fire_may {may : E → Prop} (e : Move E) (s s' : X σ V E) (hal : Allowed may e.ch) (h : fire c body K root e s = some s') :
    Step c body may K root e.a s (.ok s') := by
  obtain ⟨a, k, ch⟩ := e
  cases a with
  | worker w =>
    simp only [fire] at h
    split at h
    rotate_left
    · cases h
    rename_i hw
    split at h
    · rename_i j ho
      obtain ⟨l, hl, rfl⟩ := Option.map_eq_some_iff.1 h
      exact .notify s w j l hw ho (LazyPool.fire_step hl)
    · rename_i ho
      split at h
      · rename_i hp
        have hwork : s.x.c.pc w ≠ .idle → (∀ f d k ch', ch = .go ch' → ¬ AtSwitch body s w f d k) →
            (get? (Exn.step body w ch s.xt)).map (fun x => { s with x := x }) = some s' → Step c body may K root (.worker w) s (.ok s') := by
          intro h1 h2 h3
          have := Step.work (c := c) (body := body) (may := may) (K := K) (root := root) s w ch hw hp h1 ho hal h2
          rw [get_map h3] at this; exact this
        simp only [fireWork] at h
        split at h
        · rename_i hi
          split at h
          · rename_i j js hj
            have := Step.take (c := c) (body := body) (may := may) (K := K) (root := root) s w j js hw hp hi hj
            rw [get_map h] at this; exact this
          · rename_i hj
            cases h; exact .worked s w hw hp hi hj
        · rename_i f hi
          split at h
          · rename_i d k' x' hb
            split at h
            · split at h
              rotate_left
              · cases h
              rename_i hd
              have := Step.switch (c := c) (body := body) (may := may) (K := K) (root := root) s w f d k' hw hp ho ⟨hi, _, hb⟩
              rw [if_pos hd, get_map h] at this; exact this
            · rename_i hg
              exact hwork (by rw [hi]; simp) (fun _ _ _ _ e => absurd (by rw [e]; rfl) hg) h
          · rename_i hb
            refine hwork (by rw [hi]; simp) ?_ h
            intro g d k' _ _ ⟨h1, x', h2⟩
            rw [hi] at h1; cases h1
            exact hb d k' x' h2
        · rename_i hi1 hi2
          refine hwork hi1 ?_ h
          intro g d k' _ _ ⟨h1, _⟩
          exact hi2 g h1
      · rename_i hp
        split at h
        · rename_i hs
          split at h
          · cases h; exact .noSteal s w hw hs
          · split at h
            rotate_left
            · cases h
            rename_i hv
            have hm := get_map h
            have := Step.stole (c := c) (body := body) (may := may) (K := K) (root := root) s w (k - 1) hw hv hs
            rw [hm] at this; exact this
        · rename_i hs
          obtain ⟨l, hl, rfl⟩ := Option.map_eq_some_iff.1 h
          exact .pool s w l hs hp (LazyPool.fire_step hl)
  | caller i =>
    simp only [fire] at h
    split at h
    rotate_left
    · cases h
    rename_i hi
    split at h <;> rename_i hx
    · split at h
      rotate_left
      · cases h
      rename_i ha
      cases h
      refine .begin s i hi hx fun k hk e => ?_
      have := List.all_eq_true.1 ha k (List.mem_range.2 hk)
      rw [e] at this; cases this
    · split at h
      rotate_left
      · cases h
      rename_i hk
      cases h
      exact .submit s i k hi hx hk
    · obtain ⟨l, hl, rfl⟩ := Option.map_eq_some_iff.1 h
      exact .call s i _ _ l hi hx (LazyPool.fire_step hl)
    · obtain ⟨v, hv, rfl⟩ := Option.map_eq_some_iff.1 h
      exact .get s i _ v hi hx (valOf_mem hv)
    · cases h
  | dtor =>
    simp only [fire] at h
    split at h
    rotate_left
    · cases h
    rename_i ha
    obtain ⟨l, hl, rfl⟩ := Option.map_eq_some_iff.1 h
    refine .dtor s l (fun i hi => ?_) (LazyPool.fire_step hl)
    have := List.all_eq_true.1 ha i (List.mem_range.2 hi)
    cases hx : s.caller i with
    | back v => exact ⟨v, rfl⟩
    | _ => rw [hx] at this; cases this

theorem fire_step (e : Move E) (s s' : X σ V E) (h : fire c body K root e s = some s') : Step c body (fun _ => True) K root e.a s (.ok s') :=
  fire_may e s s' (by cases e.ch <;> trivial) h

/-- At most one notification per step. -/
theorem n_step {may : E → Prop} {a : Actor} {s s' : X σ V E} (st : Step c body may K root a s (.ok s')) (i : Nat) : s'.l.n i ≤ s.l.n i + 1 := by
  generalize hx : Res.ok s' = res at st
  cases st with
  | pool _ w l h1 h2 h3 => cases hx; have := LazyPool.n_step h3 i; exact this
  | notify _ w j l h1 h2 h3 => cases hx; have := LazyPool.n_step h3 i; exact this
  | call _ j k f l h1 h2 h3 => cases hx; have := LazyPool.n_step h3 i; exact this
  | dtor _ l h1 h2 => cases hx; have := LazyPool.n_step h2 i; exact this
  | noSteal => cases hx; exact Nat.le_succ _
  | worked => cases hx; exact Nat.le_succ _
  | begin => cases hx; exact Nat.le_succ _
  | submit => cases hx; exact Nat.le_succ _
  | get => cases hx; exact Nat.le_succ _
  | race => cases hx
  | stole => obtain ⟨x, _, rfl⟩ := map_ok hx.symm; exact Nat.le_succ _
  | work => obtain ⟨x, _, rfl⟩ := map_ok hx.symm; exact Nat.le_succ _
  | take => obtain ⟨x, _, rfl⟩ := map_ok hx.symm; exact Nat.le_succ _
  | switch _ w f d k h1 h2 h3 h4 =>
    split at hx
    · obtain ⟨x, _, rfl⟩ := map_ok hx.symm; exact Nat.le_succ _
    · cases hx

variable (c body K root)

/-- A script, followed by silence. -/
def Script.run (x : σ) (script : List (Move E)) : Fair.Run (system c body (fun _ => True) K root) :=
  Fair.Script.run (S := system c body (fun _ => True) K root) (fire c body K root) (fun e => e.a) fire_step (s0 := X.start c x) ⟨x, rfl⟩ script

/-- The state after a script. -/
def fin (x : σ) (script : List (Move E)) : X σ V E := script.foldl (Fair.tick (fire c body K root)) (X.start c x)

variable {c body K root}

theorem run_n (x : σ) (script : List (Move E)) (t : Nat) (i : Nat) :
    ((Script.run c body K root x script).st t).l.n i ≤ min t script.length := by
  induction t with
  | zero => exact Nat.zero_le _
  | succ t ih =>
    rcases (Script.run c body K root x script).next t with ⟨_, e⟩ | ⟨a, hw, st⟩
    · rw [e]; omega
    · have hlt : t < script.length := by
        apply Classical.byContradiction
        intro hn
        have : script[t]? = none := List.getElem?_eq_none (by omega)
        simp only [Script.run, Fair.Script.run, this] at hw
        cases hw
      have := n_step st i
      omega

theorem run_few (x : σ) (script : List (Move E)) (hl : script.length < P32) (t : Nat) :
    LazyPool.Few c ((Script.run c body K root x script).st t).l := fun w _ _ => by
  have := run_n (c := c) (body := body) (K := K) (root := root) x script t (c.dom w)
  omega

end Verif.WholeX
