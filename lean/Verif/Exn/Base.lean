import Verif.Exn.Oracle

/-! The functions shared by the two runtimes do the same in states that differ only in what they do not look at. -/
namespace Verif.Exn
open Verif.Runtime (State Res Fr Pc Loc Link Ev Why upd maxU16 U16 newFrame reset destroy release joinLoad joinSub finPop finDec finLose
  selfSteal stole switchRel steal take doFork doCall report upd_apply)

variable {σ₁ σ₂ W : Type}

/-- Related events. -/
def EvRel (Q : σ₁ → σ₂ → Prop) : Ev σ₁ W → Ev σ₂ W → Prop
  | .submit f c w, .submit f' c' w' => f' = f ∧ Q c c' ∧ w' = w
  | .resume f w, .resume f' w' => f' = f ∧ w' = w
  | .suspend f y, .suspend f' y' => f' = f ∧ y' = y
  | .done f v, .done f' v' => f' = f ∧ v' = v
  | _, _ => False

inductive LogRel (Q : σ₁ → σ₂ → Prop) : List (Ev σ₁ W) → List (Ev σ₂ W) → Prop
  | nil : LogRel Q [] []
  | cons {e e' l l'} : EvRel Q e e' → LogRel Q l l' → LogRel Q (e :: l) (e' :: l')

structure Base (Q : σ₁ → σ₂ → Prop) (S : Nat → σ₁ → σ₂ → Prop) (L : Nat → List (Option W) → List (Option W) → Prop)
    (c : State σ₁ W) (r : State σ₂ W) : Prop where
  nf : r.nf = c.nf
  link : r.link = c.link
  stk : r.stk = c.stk
  al : r.al = c.al
  ns : r.ns = c.ns
  pc : r.pc = c.pc
  q : r.q = c.q
  wk : r.wk = c.wk
  inbox : r.inbox = c.inbox
  loc : r.loc = c.loc
  steal : ∀ f, (r.fr f).steal = (c.fr f).steal
  join : ∀ f, (r.fr f).join = (c.fr f).join
  stolen : ∀ f, (r.fr f).stolen = (c.fr f).stolen
  st : ∀ f, f < c.nf → S f (c.fr f).st (r.fr f).st
  sl : ∀ f, f < c.nf → L f (c.fr f).slots (r.fr f).slots
  log : LogRel Q c.log r.log

def ResRel {α β : Type} (P : α → β → Prop) : Res α → Res β → Prop
  | .ok a, .ok b => P a b
  | .ub, .ub => True
  | .no, .no => True
  | _, _ => False

variable {Q : σ₁ → σ₂ → Prop} {S : Nat → σ₁ → σ₂ → Prop} {L : Nat → List (Option W) → List (Option W) → Prop}
  {c : State σ₁ W} {r : State σ₂ W}

theorem Base.live (h : Base Q S L c r) (f : Nat) : r.live f = c.live f := by simp [State.live, h.al, h.stk]
theorem Base.isTop (h : Base Q S L c r) (f : Nat) : r.isTop f = c.isTop f := by simp [State.isTop, h.al, h.stk]
theorem Base.wkEmpty (h : Base Q S L c r) (w : Nat) : r.wkEmpty w = c.wkEmpty w := by simp [State.wkEmpty, h.al, h.wk]

/-- Frames that keep their state and return objects. -/
theorem keepS (h : Base Q S L c r) (p : Nat) (g : Fr σ₁ W) (g' : Fr σ₂ W) (h1 : g.st = (c.fr p).st) (h2 : g'.st = (r.fr p).st) :
    ∀ f, f < c.nf → S f ((upd c.fr p g) f).st ((upd r.fr p g') f).st := by
  intro f hf
  simp only [upd_apply]
  split
  · rename_i e; subst e; rw [h1, h2]; exact h.st f hf
  · exact h.st f hf

theorem keepL (h : Base Q S L c r) (p : Nat) (g : Fr σ₁ W) (g' : Fr σ₂ W) (h1 : g.slots = (c.fr p).slots) (h2 : g'.slots = (r.fr p).slots) :
    ∀ f, f < c.nf → L f ((upd c.fr p g) f).slots ((upd r.fr p g') f).slots := by
  intro f hf
  simp only [upd_apply]
  split
  · rename_i e; subst e; rw [h1, h2]; exact h.sl f hf
  · exact h.sl f hf

theorem keepN {α : Type} (π : Fr σ₁ W → α) (π' : Fr σ₂ W → α) (p : Nat) (g : Fr σ₁ W) (g' : Fr σ₂ W) (h : ∀ f, π' (r.fr f) = π (c.fr f))
    (h1 : π' g' = π g) : ∀ f, π' ((upd r.fr p g') f) = π ((upd c.fr p g) f) := by
  intro f
  simp only [upd_apply]
  split
  · exact h1
  · exact h f

/-- One frame changed in its counters, and everything else. -/
theorem Base.frame (h : Base Q S L c r) (p : Nat) (g : Fr σ₁ W) (g' : Fr σ₂ W) (h1 : g.st = (c.fr p).st) (h2 : g'.st = (r.fr p).st)
    (h3 : g.slots = (c.fr p).slots) (h4 : g'.slots = (r.fr p).slots) (h5 : g'.steal = g.steal) (h6 : g'.join = g.join)
    (h7 : g'.stolen = g.stolen) : Base Q S L { c with fr := upd c.fr p g } { r with fr := upd r.fr p g' } :=
  ⟨h.nf, h.link, h.stk, h.al, h.ns, h.pc, h.q, h.wk, h.inbox, h.loc,
    keepN _ _ p g g' h.steal h5, keepN _ _ p g g' h.join h6, keepN _ _ p g g' h.stolen h7,
    keepS h p g g' h1 h2, keepL h p g g' h3 h4, h.log⟩

theorem Base.setPc (h : Base Q S L c r) (w : Nat) (x : Pc) : Base Q S L { c with pc := upd c.pc w x } { r with pc := upd r.pc w x } :=
  ⟨h.nf, h.link, h.stk, h.al, h.ns, by rw [h.pc], h.q, h.wk, h.inbox, h.loc, h.steal, h.join, h.stolen, h.st, h.sl, h.log⟩

theorem Base.setLoc (h : Base Q S L c r) (f : Nat) (x : Loc) : Base Q S L { c with loc := upd c.loc f x } { r with loc := upd r.loc f x } :=
  ⟨h.nf, h.link, h.stk, h.al, h.ns, h.pc, h.q, h.wk, h.inbox, by rw [h.loc], h.steal, h.join, h.stolen, h.st, h.sl, h.log⟩

theorem Base.setQ (h : Base Q S L c r) (w : Nat) (x : List (Nat × Nat)) : Base Q S L { c with q := upd c.q w x } { r with q := upd r.q w x } :=
  ⟨h.nf, h.link, h.stk, h.al, h.ns, h.pc, by rw [h.q], h.wk, h.inbox, h.loc, h.steal, h.join, h.stolen, h.st, h.sl, h.log⟩

theorem Base.setInbox (h : Base Q S L c r) (w : Nat) (x : List Nat) : Base Q S L { c with inbox := upd c.inbox w x } { r with inbox := upd r.inbox w x } :=
  ⟨h.nf, h.link, h.stk, h.al, h.ns, h.pc, h.q, h.wk, by rw [h.inbox], h.loc, h.steal, h.join, h.stolen, h.st, h.sl, h.log⟩

theorem Base.setWk (h : Base Q S L c r) (x : Nat → Nat) : Base Q S L { c with wk := x } { r with wk := x } :=
  ⟨h.nf, h.link, h.stk, h.al, h.ns, h.pc, h.q, rfl, h.inbox, h.loc, h.steal, h.join, h.stolen, h.st, h.sl, h.log⟩

theorem Base.setAl (h : Base Q S L c r) (x : Nat → List Nat) : Base Q S L { c with al := x } { r with al := x } :=
  ⟨h.nf, h.link, h.stk, rfl, h.ns, h.pc, h.q, h.wk, h.inbox, h.loc, h.steal, h.join, h.stolen, h.st, h.sl, h.log⟩

theorem Base.setNs (h : Base Q S L c r) (x : Nat) : Base Q S L { c with ns := x } { r with ns := x } :=
  ⟨h.nf, h.link, h.stk, h.al, rfl, h.pc, h.q, h.wk, h.inbox, h.loc, h.steal, h.join, h.stolen, h.st, h.sl, h.log⟩

theorem Base.setLog (h : Base Q S L c r) (e : Ev σ₁ W) (e' : Ev σ₂ W) (he : EvRel Q e e') :
    Base Q S L { c with log := e :: c.log } { r with log := e' :: r.log } :=
  ⟨h.nf, h.link, h.stk, h.al, h.ns, h.pc, h.q, h.wk, h.inbox, h.loc, h.steal, h.join, h.stolen, h.st, h.sl, .cons he h.log⟩

theorem rel_ite {α β : Type} {P : α → β → Prop} {p q : Prop} [Decidable p] [Decidable q] {a b : Res α} {a' b' : Res β} (h : q ↔ p)
    (h1 : p → ResRel P a a') (h2 : ¬ p → ResRel P b b') : ResRel P (if p then a else b) (if q then a' else b') := by
  by_cases hp : p
  · rw [if_pos hp, if_pos (h.2 hp)]; exact h1 hp
  · rw [if_neg hp, if_neg (fun hq => hp (h.1 hq))]; exact h2 hp

theorem base_joinLoad (h : Base Q S L c r) (w f : Nat) : ResRel (Base Q S L) (joinLoad c w f) (joinLoad r w f) :=
  rel_ite (by rw [h.steal, h.join]) (fun _ => (h.setPc w _).setLoc f _) (fun _ => h.setPc w _)

theorem base_joinSub (h : Base Q S L c r) (w f : Nat) : ResRel (Base Q S L) (joinSub c w f) (joinSub r w f) := by
  have hb := h.frame f { c.fr f with join := ((c.fr f).join + U16 - (maxU16 - (c.fr f).steal)) % U16 }
    { r.fr f with join := ((r.fr f).join + U16 - (maxU16 - (r.fr f).steal)) % U16 } rfl rfl rfl rfl (h.steal f)
    (by rw [h.steal, h.join]) (h.stolen f)
  exact rel_ite (by rw [h.steal, h.join]) (fun _ => (hb.setPc w _).setLoc f _) (fun _ => (hb.setPc w _).setLoc f _)

theorem base_report (h : Base Q S L c r) (p k : Nat) : Base Q S L (report c p k) (report r p k) := by
  unfold report
  exact (h.frame p { c.fr p with kids := (c.fr p).kids.erase k } { r.fr p with kids := (r.fr p).kids.erase k } rfl rfl rfl rfl
    (h.steal p) (h.join p) (h.stolen p)).setLoc k .gone

theorem base_finPop (h : Base Q S L c r) (w p k : Nat) : ResRel (Base Q S L) (finPop c w p k) (finPop r w p k) := by
  obtain ⟨rfr, rnf, rlink, rstk, ral, rns, rpc, rq, rwk, rinbox, rloc, rbase, rinit, rlog⟩ := r
  obtain ⟨e1, e2, e3, e4, e5, e6, e7, e8, e9, e10, -, -, -, -, -, -⟩ := id h
  dsimp only at e1 e2 e3 e4 e5 e6 e7 e8 e9 e10
  subst e1 e2 e3 e4 e5 e6 e7 e8 e9 e10
  unfold finPop
  have hb := base_report h p k
  dsimp only
  cases hq : c.q w with
  | nil => exact rel_ite Iff.rfl (fun _ => h.setPc w _) (fun _ => trivial)
  | cons x l =>
    exact rel_ite Iff.rfl
      (fun _ => (((hb.setQ w l).setPc w (.run p)).setLoc p (.running w)).setLog (.resume p w) (.resume p w) ⟨rfl, rfl⟩)
      (fun _ => trivial)

theorem base_finDec (h : Base Q S L c r) (w p k : Nat) (same : Bool) :
    ResRel (Base Q S L) (finDec c w p k same) (finDec r w p k same) := by
  have hb := base_report h p k
  have h1 := hb.frame p
    { (report c p k).fr p with join := (((report c p k).fr p).join + U16 - 1) % U16, joined := ((report c p k).fr p).joined + 1 }
    { (report r p k).fr p with join := (((report r p k).fr p).join + U16 - 1) % U16, joined := ((report r p k).fr p).joined + 1 }
    rfl rfl rfl rfl (hb.steal p) (by show (_ + _ - _) % _ = (_ + _ - _) % _; rw [hb.join]) (hb.stolen p)
  unfold finDec
  exact rel_ite (by rw [h.live]) (fun _ => rel_ite (by rw [h.join]) (fun _ => (h1.setPc w _).setLoc p _) (fun _ => h1.setPc w _))
    (fun _ => trivial)

theorem base_release (h : Base Q S L c r) (w : Nat) : Base Q S L (release c w) (release r w) := by
  obtain ⟨rfr, rnf, rlink, rstk, ral, rns, rpc, rq, rwk, rinbox, rloc, rbase, rinit, rlog⟩ := r
  obtain ⟨e1, e2, e3, e4, e5, e6, e7, e8, e9, e10, -, -, -, -, -, -⟩ := id h
  dsimp only at e1 e2 e3 e4 e5 e6 e7 e8 e9 e10
  subst e1 e2 e3 e4 e5 e6 e7 e8 e9 e10
  exact (h.setWk (upd c.wk w (2 * c.ns))).setNs (c.ns + 1)

theorem base_finLose (h : Base Q S L c r) (w : Nat) (same : Bool) : ResRel (Base Q S L) (finLose c w same) (finLose r w same) := by
  obtain ⟨rfr, rnf, rlink, rstk, ral, rns, rpc, rq, rwk, rinbox, rloc, rbase, rinit, rlog⟩ := r
  obtain ⟨e1, e2, e3, e4, e5, e6, e7, e8, e9, e10, -, -, -, -, -, -⟩ := id h
  dsimp only at e1 e2 e3 e4 e5 e6 e7 e8 e9 e10
  subst e1 e2 e3 e4 e5 e6 e7 e8 e9 e10
  cases same with
  | true =>
    have hb := base_release h w
    exact rel_ite Iff.rfl (fun _ => hb.setPc w .idle) (fun _ => trivial)
  | false => exact rel_ite Iff.rfl (fun _ => h.setPc w .idle) (fun _ => trivial)

theorem base_selfSteal (h : Base Q S L c r) (w : Nat) : ResRel (Base Q S L) (selfSteal c w) (selfSteal r w) := by
  obtain ⟨rfr, rnf, rlink, rstk, ral, rns, rpc, rq, rwk, rinbox, rloc, rbase, rinit, rlog⟩ := r
  obtain ⟨e1, e2, e3, e4, e5, e6, e7, e8, e9, e10, -, -, -, -, -, -⟩ := id h
  dsimp only at e1 e2 e3 e4 e5 e6 e7 e8 e9 e10
  subst e1 e2 e3 e4 e5 e6 e7 e8 e9 e10
  unfold selfSteal
  dsimp only
  cases hq : c.q w with
  | nil => exact rel_ite Iff.rfl (fun _ => h.setPc w _) (fun _ => trivial)
  | cons x l => exact ((h.setQ w l).setPc w (.stole x.1)).setLoc x.1 (.stolenBy w)

theorem base_stole (h : Base Q S L c r) (w p : Nat) : ResRel (Base Q S L) (stole c w p) (stole r w p) := by
  obtain ⟨rfr, rnf, rlink, rstk, ral, rns, rpc, rq, rwk, rinbox, rloc, rbase, rinit, rlog⟩ := r
  obtain ⟨e1, e2, e3, e4, e5, e6, e7, e8, e9, e10, -, -, -, -, -, -⟩ := id h
  dsimp only at e1 e2 e3 e4 e5 e6 e7 e8 e9 e10
  subst e1 e2 e3 e4 e5 e6 e7 e8 e9 e10
  exact rel_ite Iff.rfl (fun _ =>
    ((((h.frame p { c.fr p with steal := ((c.fr p).steal + 1) % U16, stolen := (c.fr p).stolen + 1 }
      { rfr p with steal := ((rfr p).steal + 1) % U16, stolen := (rfr p).stolen + 1 } rfl rfl rfl rfl
      (by have := h.steal p; dsimp only at this ⊢; rw [this]) (h.join p)
      (by have := h.stolen p; dsimp only at this ⊢; rw [this])).setPc w (.run p)).setLoc p (.running w)).setLog
        (.resume p w) (.resume p w) ⟨rfl, rfl⟩)) (fun _ => trivial)

theorem base_switchRel (h : Base Q S L c r) (w : Nat) (z : Bool) : ResRel (Base Q S L) (switchRel c w z) (switchRel r w z) := by
  obtain ⟨rfr, rnf, rlink, rstk, ral, rns, rpc, rq, rwk, rinbox, rloc, rbase, rinit, rlog⟩ := r
  obtain ⟨e1, e2, e3, e4, e5, e6, e7, e8, e9, e10, -, -, -, -, -, -⟩ := id h
  dsimp only at e1 e2 e3 e4 e5 e6 e7 e8 e9 e10
  subst e1 e2 e3 e4 e5 e6 e7 e8 e9 e10
  cases z with
  | true =>
    have hb := base_release h w
    exact rel_ite Iff.rfl (fun _ => hb.setPc w .selfSteal) (fun _ => trivial)
  | false => exact rel_ite Iff.rfl (fun _ => h.setPc w .selfSteal) (fun _ => trivial)

theorem base_steal (h : Base Q S L c r) (w v : Nat) : ResRel (Base Q S L) (steal c w v) (steal r w v) := by
  obtain ⟨rfr, rnf, rlink, rstk, ral, rns, rpc, rq, rwk, rinbox, rloc, rbase, rinit, rlog⟩ := r
  obtain ⟨e1, e2, e3, e4, e5, e6, e7, e8, e9, e10, -, -, -, -, -, -⟩ := id h
  dsimp only at e1 e2 e3 e4 e5 e6 e7 e8 e9 e10
  subst e1 e2 e3 e4 e5 e6 e7 e8 e9 e10
  unfold steal
  dsimp only
  cases hq : (c.q v).getLast? with
  | none => trivial
  | some x =>
    exact rel_ite Iff.rfl (fun _ => ((h.setQ v (c.q v).dropLast).setPc w (.stole x.1)).setLoc x.1 (.stolenBy w))
      (fun _ => rel_ite Iff.rfl (fun _ => trivial) (fun _ => trivial))

theorem base_take (h : Base Q S L c r) (w : Nat) : ResRel (Base Q S L) (take c w) (take r w) := by
  obtain ⟨rfr, rnf, rlink, rstk, ral, rns, rpc, rq, rwk, rinbox, rloc, rbase, rinit, rlog⟩ := r
  obtain ⟨e1, e2, e3, e4, e5, e6, e7, e8, e9, e10, -, -, -, -, -, -⟩ := id h
  dsimp only at e1 e2 e3 e4 e5 e6 e7 e8 e9 e10
  subst e1 e2 e3 e4 e5 e6 e7 e8 e9 e10
  unfold take
  dsimp only
  cases hq : c.inbox w with
  | nil => trivial
  | cons f l =>
    have e : (rfr f).steal = (c.fr f).steal := h.steal f
    have h1 := (((h.setInbox w l).setWk (if (c.fr f).steal = 0 then upd c.wk w (c.stk f) else c.wk)).setPc w (.run f)).setLoc f
      (.running w) |>.setLog (.resume f w) (.resume f w) ⟨rfl, rfl⟩
    dsimp only
    rw [e]
    exact rel_ite Iff.rfl (fun _ => h1) (fun _ => trivial)

theorem base_destroy (h : Base Q S L c r) (w f : Nat) : ResRel (Base Q S L) (destroy c w f) (destroy r w f) := by
  obtain ⟨rfr, rnf, rlink, rstk, ral, rns, rpc, rq, rwk, rinbox, rloc, rbase, rinit, rlog⟩ := r
  obtain ⟨e1, e2, e3, e4, e5, e6, e7, e8, e9, e10, -, -, -, -, -, -⟩ := id h
  dsimp only at e1 e2 e3 e4 e5 e6 e7 e8 e9 e10
  subst e1 e2 e3 e4 e5 e6 e7 e8 e9 e10
  exact rel_ite Iff.rfl (fun _ => h.setAl _) (fun _ => trivial)

end Verif.Exn
