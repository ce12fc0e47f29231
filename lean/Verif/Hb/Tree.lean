import Verif.Hb.Run
import Verif.Hb.Spec

/-!
What the program's order says about the steps of a task, of its children, and about join counters.
-/
namespace Verif.Hb
open Verif.Runtime (State Res Fr Pc Loc Link Alive Few forkPar tok upd upd_apply upd_same upd_ne maxU16)
open Verif.Exn (XS Choice)
open Verif.Mem (MS Act)
variable {σ V E L : Type}

/-- What Verif.Runtime.Inv knows about return objects. -/
structure Fs (pend : σ → Nat) (x : XS σ V E) : Prop where
  slot : ∀ c p, forkPar (x.c.link c) = some p → x.c.loc c ≠ .unborn → x.c.loc c ≠ .gone → (x.c.fr p).slots ≠ []
  pd : ∀ w f, x.c.pc w = .run f → pend (x.c.fr f).st = (x.c.fr f).slots.length

theorem fs_of {body : σ → Exn.Act σ V E} {pend : σ → Nat} {dirty : σ → Prop} {may : E → Prop} (hd : Exn.Disc body pend dirty) {s : XS σ V E}
    (h : Exn.Reach body pend may s) : Fs pend s := by
  obtain ⟨es, r, hr, hrel⟩ := Exn.reach_rel hd h fun _ => .nil
  have hi := Verif.Runtime.reach_inv (Exn.disc_tgt hd) hr
  have b := hrel.base
  have L := hi.loc
  have K := hi.link
  have C := hi.count
  have lt : ∀ f, Alive (r.loc f) → f < s.c.nf := fun f ha => Exn.alive_lt hi hrel (by rw [← hrel.base.loc]; exact ha)
  have sl : ∀ f, Alive (r.loc f) → (s.c.fr f).slots.length = (r.fr f).slots.length := fun f ha => by
    rw [(b.sl f (lt f ha)).1, List.length_map]
  refine ⟨fun c p hc h1 h2 e => ?_, fun w f hp => ?_⟩
  · rw [← b.link] at hc
    rw [← b.loc] at h1 h2
    have ha := K.kid c p hc h1 h2
    have hm : c ∈ (r.fr p).kids := (K.kids p ha c).2 ⟨hc, h1, h2⟩
    have h3 := List.length_pos_of_mem hm
    have h4 := C.cnt p ha
    have h5 := C.slot p ha
    have h6 := sl p ha
    rw [e] at h6
    simp only [List.length_nil] at h6
    omega
  · rw [← b.pc] at hp
    have hl := (L.run w f).2 (.inl hp)
    have ha : Alive (r.loc f) := by rw [hl]; trivial
    rw [sl f ha, ← hi.st.pd f ha]
    have h1 := (b.st f (lt f ha)).2
    have h2 := hrel.aw f
    rw [← b.loc, hl] at h2
    simp only [Exn.AwOk] at h2
    rw [h2] at h1
    simp only at h1
    rw [h1, Exn.norm_pend hd]

structure J (nf : Nat) (loc : Nat → Loc) (pc : Nat → Pc) (sl : Nat → Prop) (g : Ord) (tr : List (Rec L)) : Prop where
  /-- A step of a task is in the task's order. -/
  rt : ∀ r ∈ tr, r.task < nf ∧ r.no ∈ g.L r.task
  /-- An access to a join counter is in the order of its task, or in that of the children that have ended. -/
  ct : ∀ r ∈ tr, ∀ p b, r.cnt = some (p, b) → p < nf ∧ (r.no ∈ g.L p ∨ b = false ∧ r.no ∈ g.D p)
  /-- The construction of a join counter comes before the children that use it. -/
  cc : ∀ r ∈ tr, ∀ p, r.cnt = some (p, true) → ∀ c, c < nf → g.par c = .fork p → loc c ≠ .gone → r.no ∈ g.L c
  /-- A task without children to join has none that have ended. -/
  dn : ∀ p, Alive (loc p) → sl p → g.D p = []
  de : ∀ p, ¬ Alive (loc p) → g.D p = []
  /-- What a task that has ended did, its parent gets. -/
  go : ∀ c, c < nf → loc c = .gone → (∀ p, g.par c = .fork p → ∀ e ∈ g.L c, e ∈ g.D p ∨ e ∈ g.L p) ∧ ∀ p, g.par c = .call p → g.L c ⊆ g.L p
  fp : ∀ w p c, pc w = .finPop p c → ∀ e ∈ g.L c, e ∈ g.D p ∨ e ∈ g.L p
  pl : ∀ c, c < nf → ∀ p, g.par c = .fork p ∨ g.par c = .call p → p < c

section
variable {nf : Nat} {loc loc' : Nat → Loc} {pc pc' : Nat → Pc} {sl sl' : Nat → Prop} {g : Ord} {tr : List (Rec L)}

theorem J.at (j : J nf loc pc sl g tr) (hA : ∀ f, Alive (loc' f) ↔ Alive (loc f)) (hG : ∀ f, loc' f = .gone ↔ loc f = .gone) (hS : ∀ p, sl' p → sl p ∨ g.D p = [])
    (hP : ∀ w p c, pc' w = .finPop p c → pc w = .finPop p c) : J nf loc' pc' sl' g tr :=
  ⟨j.rt, j.ct, fun r hr p h1 c h2 h3 h4 => j.cc r hr p h1 c h2 h3 fun h => h4 ((hG c).2 h), fun p h1 h2 => (hS p h2).elim (j.dn p ((hA p).1 h1)) id,
    fun p h1 => j.de p fun h => h1 ((hA p).2 h), fun c h1 h2 => j.go c h1 ((hG c).1 h2), fun w p c h => j.fp w p c (hP w p c h), j.pl⟩

/-- A task's order grows. -/
theorem J.grow (j : J nf loc pc sl g tr) {f : Nat} {l : List Nat} (hl : g.L f ⊆ l) (hf : loc f ≠ .gone) (hp : ∀ w p, pc w ≠ .finPop p f) :
    J nf loc pc sl { g with L := upd g.L f l } tr := by
  have hm : ∀ c, g.L c ⊆ upd g.L f l c := fun c e he => by
    rw [upd_apply]; split
    · rename_i e'; subst e'; exact hl he
    · exact he
  refine ⟨fun r hr => ⟨(j.rt r hr).1, hm _ (j.rt r hr).2⟩, fun r hr p b h => ⟨(j.ct r hr p b h).1, (j.ct r hr p b h).2.imp (fun h => hm _ h) id⟩,
    fun r hr p h c h1 h2 h3 => hm _ (j.cc r hr p h c h1 h2 h3), j.dn, j.de, fun c h1 h2 => ?_, fun w p c h e he => ?_, j.pl⟩
  · have hc : c ≠ f := by rintro rfl; exact hf h2
    have := j.go c h1 h2
    simp only [upd_ne _ _ hc]
    exact ⟨fun p h3 e he => (this.1 p h3 e he).imp id (fun h => hm _ h), fun p h3 e he => hm _ (this.2 p h3 he)⟩
  · have hc : c ≠ f := by rintro rfl; exact hp w p h
    simp only [upd_ne _ _ hc] at he
    exact (j.fp w p c h e he).imp id (fun h => hm _ h)

theorem J.act (j : J nf loc pc sl g tr) {f : Nat} (n : Nat) (hf : loc f ≠ .gone) (hp : ∀ w p, pc w ≠ .finPop p f) : J nf loc pc sl (g.act n f) tr :=
  j.grow (fun _ h => List.mem_cons_of_mem _ h) hf hp

theorem J.told (j : J nf loc pc sl g tr) {f : Nat} (hf : loc f ≠ .gone) (hp : ∀ w p, pc w ≠ .finPop p f) : J nf loc pc sl (g.told f) tr :=
  j.grow (fun _ h => List.mem_append.2 (.inr h)) hf hp

theorem J.join (j : J nf loc pc sl g tr) {f : Nat} (hf : loc f ≠ .gone) (hp : ∀ w p, pc w ≠ .finPop p f) : J nf loc pc sl (g.join f) tr := by
  have j1 := j.grow (l := g.D f ++ g.L f) (fun _ h => List.mem_append.2 (.inr h)) hf hp
  have key : ∀ p e, (e ∈ g.D p ∨ e ∈ upd g.L f (g.D f ++ g.L f) p) → (e ∈ upd g.D f [] p ∨ e ∈ upd g.L f (g.D f ++ g.L f) p) := fun p e he => by
    by_cases h : p = f
    · subst h
      simp only [upd_same] at he ⊢
      exact .inr (he.elim (fun h => List.mem_append.2 (.inl h)) (fun h => h))
    · rw [upd_ne _ _ h]; exact he
  have dd : ∀ p, g.D p = [] → upd g.D f [] p = [] := fun p h => by rw [upd_apply]; split <;> simp_all
  refine ⟨j1.rt, fun r hr p b h => ⟨(j1.ct r hr p b h).1, ?_⟩, j1.cc, fun p h1 h2 => dd p (j1.dn p h1 h2), fun p h1 => dd p (j1.de p h1), fun c h1 h2 => ?_, fun w p c h e he => key p e (j1.fp w p c h e he), j.pl⟩
  · rcases (j1.ct r hr p b h).2 with h1 | ⟨h1, h2⟩
    · exact .inl h1
    · exact (key p r.no (.inl h2)).elim (fun h => .inr ⟨h1, h⟩) .inl
  · exact ⟨fun p h3 e he => key p e ((j1.go c h1 h2).1 p h3 e he), (j1.go c h1 h2).2⟩

/-- A child that has ended leaves. -/
theorem J.leave (j : J nf loc pc sl g tr) {c : Nat} (hna : ¬ Alive (loc c)) (h1 : ∀ p, g.par c = .fork p → ∀ e ∈ g.L c, e ∈ g.D p ∨ e ∈ g.L p)
    (h2 : ∀ p, g.par c = .call p → g.L c ⊆ g.L p) : J nf (upd loc c .gone) pc sl g tr := by
  have al : ∀ p, Alive (upd loc c .gone p) → Alive (loc p) := fun p hp => by
    rw [upd_apply] at hp; split at hp
    · exact hp.elim
    · exact hp
  have ng : ∀ p, upd loc c .gone p ≠ .gone → loc p ≠ .gone := fun p hp h => hp (by rw [upd_apply]; split <;> simp_all)
  refine ⟨j.rt, j.ct, fun r hr p h c' h3 h4 h5 => j.cc r hr p h c' h3 h4 (ng _ h5), fun p h3 h4 => j.dn p (al p h3) h4, fun p h3 => ?_, fun c' h3 h4 => ?_, j.fp, j.pl⟩
  · by_cases e : p = c
    · subst e; exact j.de p hna
    · rw [upd_ne _ _ e] at h3; exact j.de p h3
  · by_cases e : c' = c
    · subst e; exact ⟨h1, h2⟩
    · rw [upd_ne _ _ e] at h4; exact j.go c' h3 h4

/-- A task ends. -/
theorem J.drop (j : J nf loc pc sl g tr) {c : Nat} {l : Loc} (ha : Alive (loc c)) (hl : ¬ Alive l) (hg : l ≠ .gone) (hD : g.D c = []) : J nf (upd loc c l) pc sl g tr := by
  have al : ∀ p, Alive (upd loc c l p) → Alive (loc p) := fun p hp => by
    rw [upd_apply] at hp; split at hp
    · exact absurd hp hl
    · exact hp
  refine ⟨j.rt, j.ct, fun r hr p h c' h3 h4 h5 => j.cc r hr p h c' h3 h4 fun h6 => ?_, fun p h3 h4 => j.dn p (al p h3) h4, fun p h3 => ?_, fun c' h3 h4 => ?_, j.fp, j.pl⟩
  · by_cases e : c' = c
    · subst e; rw [h6] at ha; exact ha
    · rw [upd_ne _ _ e] at h5; exact h5 h6
  · by_cases e : p = c
    · subst e; exact hD
    · rw [upd_ne _ _ e] at h3; exact j.de p h3
  · by_cases e : c' = c
    · subst e; rw [upd_same] at h4; exact absurd h4 hg
    · rw [upd_ne _ _ e] at h4; exact j.go c' h3 h4

/-- The parent gets what a child did. -/
theorem J.give (j : J nf loc pc sl g tr) {p : Nat} (l : List Nat) (hs : ¬ sl p) (ha : Alive (loc p)) : J nf loc pc sl { g with D := upd g.D p (l ++ g.D p) } tr := by
  have hm : ∀ q, g.D q ⊆ upd g.D p (l ++ g.D p) q := fun q e he => by
    rw [upd_apply]; split
    · rename_i e'; subst e'; exact List.mem_append.2 (.inr he)
    · exact he
  refine ⟨j.rt, fun r hr q b h => ⟨(j.ct r hr q b h).1, (j.ct r hr q b h).2.imp id fun h => ⟨h.1, hm _ h.2⟩⟩, j.cc, fun q h1 h2 => ?_, fun q h1 => ?_, fun c h1 h2 => ?_, fun w q c h e he => ?_, j.pl⟩
  · have : q ≠ p := by rintro rfl; exact hs h2
    simp only [upd_ne _ _ this]; exact j.dn q h1 h2
  · have : q ≠ p := by rintro rfl; exact h1 ha
    simp only [upd_ne _ _ this]; exact j.de q h1
  · exact ⟨fun q h3 e he => ((j.go c h1 h2).1 q h3 e he).imp (fun h => hm _ h) id, (j.go c h1 h2).2⟩
  · exact (j.fp w q c h e he).imp (fun h => hm _ h) id

/-- A forked child is about to pop its parent. -/
theorem J.pop (j : J nf loc pc sl g tr) {w p c : Nat} (h : ∀ e ∈ g.L c, e ∈ g.D p ∨ e ∈ g.L p) : J nf loc (upd pc w (.finPop p c)) sl g tr := by
  refine ⟨j.rt, j.ct, j.cc, j.dn, j.de, j.go, fun v q k hv => ?_, j.pl⟩
  by_cases e : v = w
  · subst e; rw [upd_same] at hv; cases hv; exact h
  · rw [upd_ne _ _ e] at hv; exact j.fp v q k hv

theorem J.new (j : J nf loc pc sl g tr) {l : Loc} {k : List Nat} {q : Par} (un : loc nf = .unborn) (ha : Alive l) (pd : ∀ w p c, pc w = .finPop p c → p ≠ nf ∧ c ≠ nf)
    (hq : ∀ p, q = .fork p ∨ q = .call p → p < nf ∧ ∀ e ∈ g.L p, e ∈ k) :
    J (nf + 1) (upd loc nf l) pc sl { g with L := upd g.L nf k, D := upd g.D nf [], par := upd g.par nf q } tr := by
  have hL : ∀ c, c < nf → upd g.L nf k c = g.L c := fun c hc => upd_ne _ _ (by omega)
  refine ⟨fun r hr => ?_, fun r hr p b h => ?_, fun r hr p h c h1 h2 h3 => ?_, fun p h1 h2 => ?_, fun p h1 => ?_, fun c h1 h2 => ?_, fun w p c h e he => ?_, fun c h1 p h2 => ?_⟩
  · obtain ⟨h1, h2⟩ := j.rt r hr
    refine ⟨by omega, ?_⟩
    simp only [hL _ h1]; exact h2
  · obtain ⟨h1, h2⟩ := j.ct r hr p b h
    refine ⟨by omega, ?_⟩
    simp only [hL _ h1]
    rw [upd_ne _ _ (by omega)]; exact h2
  · by_cases e : c = nf
    · subst e
      simp only [upd_same] at h2 ⊢
      refine (hq p (.inl h2)).2 _ ?_
      rcases (j.ct r hr p true h).2 with h4 | ⟨h4, _⟩
      · exact h4
      · cases h4
    · simp only [upd_ne _ _ e] at h2 h3 ⊢
      exact j.cc r hr p h c (by omega) h2 h3
  · by_cases e : p = nf
    · subst e; simp only [upd_same]
    · simp only [upd_ne _ _ e] at h1 ⊢; exact j.dn p h1 h2
  · by_cases e : p = nf
    · subst e; simp only [upd_same]
    · simp only [upd_ne _ _ e] at h1 ⊢; exact j.de p h1
  · by_cases e : c = nf
    · subst e; simp only [upd_same] at h2; rw [h2] at ha; exact ha.elim
    · simp only [upd_ne _ _ e] at h2 ⊢
      have := j.go c (by omega) h2
      refine ⟨fun p h3 => ?_, fun p h3 => ?_⟩
      · have := j.pl c (by omega) p (.inl h3)
        rw [upd_ne _ _ (by omega), upd_ne _ _ (by omega)]
        exact (j.go c (by omega) h2).1 p h3
      · have := j.pl c (by omega) p (.inr h3)
        rw [upd_ne _ _ (by omega)]
        exact (j.go c (by omega) h2).2 p h3
  · obtain ⟨h1, h2⟩ := pd w p c h
    simp only [upd_ne _ _ h1, upd_ne _ _ h2] at he ⊢
    exact j.fp w p c h e he
  · by_cases e : c = nf
    · subst e; simp only [upd_same] at h2; exact (hq p h2).1
    · simp only [upd_ne _ _ e] at h2; exact j.pl c (by omega) p h2

/-- Another record. -/
theorem J.log (j : J nf loc pc sl g tr) {r : Rec L} (h1 : r.task < nf ∧ r.no ∈ g.L r.task)
    (h2 : ∀ p b, r.cnt = some (p, b) → p < nf ∧ (r.no ∈ g.L p ∨ b = false ∧ r.no ∈ g.D p))
    (h3 : ∀ p, r.cnt = some (p, true) → ∀ c, c < nf → g.par c = .fork p → loc c ≠ .gone → r.no ∈ g.L c) : J nf loc pc sl g (r :: tr) :=
  ⟨fun r' hr => (List.mem_cons.1 hr).elim (fun e => by rw [e]; exact h1) (j.rt r'), fun r' hr => (List.mem_cons.1 hr).elim (fun e => by rw [e]; exact h2) (j.ct r'),
    fun r' hr => (List.mem_cons.1 hr).elim (fun e => by rw [e]; exact h3) (j.cc r'), j.dn, j.de, j.go, j.fp, j.pl⟩

theorem J.ended_par (j : J nf loc pc sl g tr) {f : Nat} (e : g.par f = .root) : g.ended f = g := by unfold Ord.ended; rw [e]

end
end Verif.Hb
