import Verif.Hb.Tree

/-!
Every step keeps what Verif.Hb.Tree says.
-/
namespace Verif.Hb
open Verif.Runtime (State Res Fr Pc Loc Link Alive Few forkPar tok upd upd_apply upd_same upd_ne maxU16)
open Verif.Exn (XS Choice)
open Verif.Mem (MS Act)
variable {σ V E L : Type}

/-- What a step does. -/
def JG (x x' : XS σ V E) (body : σ → Act σ V E L) (w : Nat) (ch : Choice E) (n : Nat) (g : Ord) (tr : List (Rec L)) : Prop :=
  match who w ch x with
  | none => J x'.c.nf x'.c.loc x'.c.pc (fun p => (x'.c.fr p).slots = []) (post body w ch x (merge body w ch x x' g)) tr
  | some f => ∀ r : Rec L, r.no = n → r.task = f → r.cnt = counter body w ch x →
      J x'.c.nf x'.c.loc x'.c.pc (fun p => (x'.c.fr p).slots = []) (post body w ch x ((merge body w ch x x' g).act n f)) (r :: tr)

variable {x x' : XS σ V E} {h : Clk} {g : Ord} {B : Nat → List Nat} {w n : Nat} {ch : Choice E} {body : σ → Act σ V E L} {tr : List (Rec L)}

abbrev JX (x : XS σ V E) (g : Ord) (tr : List (Rec L)) : Prop := J x.c.nf x.c.loc x.c.pc (fun p => (x.c.fr p).slots = []) g tr

theorem Fx.lt (F : Fx x) {f : Nat} (hf : x.c.loc f ≠ .unborn) : f < x.c.nf := by
  rcases Nat.lt_or_ge f x.c.nf with h1 | h1
  · exact h1
  · exact absurd ((F.loc.fresh f).2 h1) hf

theorem Fx.nopop (F : Fx x) {f : Nat} (hf : Alive (x.c.loc f)) (v p : Nat) : x.c.pc v ≠ .finPop p f := fun hp => F.quiet hf v p (.inl hp)

theorem par_fork (i : I x.c.nf x.c.loc x.c.pc (fun f => (x.c.fr f).stolen) x.c.link h g B) {c p : Nat} (hc : c < x.c.nf) (e : g.par c = .fork p) : forkPar (x.c.link c) = some p := by
  have := i.par c hc
  rw [e] at this
  cases hl : x.c.link c <;> rw [hl] at this <;> first | exact this.elim | (cases this; rfl)

theorem upd_alive {loc : Nat → Loc} {f : Nat} {l : Loc} (h1 : Alive (loc f)) (h2 : Alive l) (p : Nat) : Alive (upd loc f l p) ↔ Alive (loc p) := by
  rw [upd_apply]; split
  · rename_i e; subst e; exact ⟨fun _ => h1, fun _ => h2⟩
  · exact Iff.rfl

theorem upd_gone {loc : Nat → Loc} {f : Nat} {l : Loc} (h1 : loc f ≠ .gone) (h2 : l ≠ .gone) (p : Nat) : upd loc f l p = .gone ↔ loc p = .gone := by
  rw [upd_apply]; split
  · rename_i e; subst e; exact ⟨fun h => absurd h h2, fun h => absurd h h1⟩
  · exact Iff.rfl

theorem alive_gone {l : Loc} (h : Alive l) : l ≠ .gone := by rintro rfl; exact h

theorem upd_pop {pc : Nat → Pc} {w : Nat} {q : Pc} (hq : ∀ p c, q ≠ .finPop p c) (v p c : Nat) (h : upd pc w q v = .finPop p c) : pc v = .finPop p c := by
  rw [upd_apply] at h; split at h
  · exact absurd h (hq p c)
  · exact h

/-- A step for a task that moves nothing but that task. -/
theorem jg_act (j : JX x g tr) (F : Fx x) {f : Nat} (ha : Alive (x.c.loc f)) (hwho : who w ch x = some f) {g1 : Ord} (hm : merge body w ch x x' g = g1) (j1 : JX x g1 tr)
    (hpo : ∀ g', post body w ch x g' = g') (hc : ∀ p b, counter body w ch x = some (p, b) → p = f ∧ (b = true → ∀ c, c < x.c.nf → g1.par c = .fork f → x.c.loc c = .gone))
    (h1 : x'.c.nf = x.c.nf) (h2 : ∀ p, Alive (x'.c.loc p) ↔ Alive (x.c.loc p)) (h2' : ∀ p, x'.c.loc p = .gone ↔ x.c.loc p = .gone)
    (h3 : ∀ v p c, x'.c.pc v = .finPop p c → x.c.pc v = .finPop p c) (h4 : ∀ p, (x'.c.fr p).slots = [] → (x.c.fr p).slots = [] ∨ g1.D p = []) :
    JG x x' body w ch n g tr := by
  unfold JG
  rw [hwho]
  intro r hr hrt hrc
  rw [hm, hpo, h1]
  have j2 := (j1.act n (alive_gone ha) (F.nopop ha)).at (loc' := x'.c.loc) (pc' := x'.c.pc) (sl' := fun p => (x'.c.fr p).slots = []) h2 h2' h4 h3
  have hn : n ∈ (g1.act n f).L f := by simp [Ord.act, upd_same]
  have hlt := F.lt (f := f) (by rintro e; rw [e] at ha; exact ha)
  refine j2.log ⟨by rw [hrt]; exact hlt, by rw [hr, hrt]; exact hn⟩ (fun p b hp => ?_) (fun p hp c h5 h6 h7 => ?_)
  · rw [hrc] at hp
    obtain ⟨rfl, _⟩ := hc p b hp
    exact ⟨hlt, .inl (by rw [hr]; exact hn)⟩
  · rw [hrc] at hp
    obtain ⟨rfl, h8⟩ := hc p true hp
    exact absurd ((h2' c).2 (h8 rfl c h5 h6)) h7

/-- A step for no task. -/
theorem jg_none (j : JX x g tr) (hwho : who w ch x = none) (hm : merge body w ch x x' g = g)
    (hpo : ∀ g', post body w ch x g' = g') (h1 : x'.c.nf = x.c.nf) (h2 : ∀ p, Alive (x'.c.loc p) ↔ Alive (x.c.loc p)) (h2' : ∀ p, x'.c.loc p = .gone ↔ x.c.loc p = .gone)
    (h3 : ∀ v p c, x'.c.pc v = .finPop p c → x.c.pc v = .finPop p c) (h4 : ∀ p, (x'.c.fr p).slots = (x.c.fr p).slots) :
    JG x x' body w ch n g tr := by
  unfold JG
  rw [hwho]
  simp only
  rw [hm, hpo, h1]
  exact j.at h2 h2' (fun p hp => .inl (by rw [← h4 p]; exact hp)) h3

theorem slots_upd {W : Type} {fr : Nat → Fr σ W} {f : Nat} {k : Fr σ W} (hk : k.slots = (fr f).slots) (p : Nat) : (upd fr f k p).slots = (fr p).slots := by
  rw [upd_apply]; split
  · rename_i e; rw [e, hk]
  · rfl

theorem jg_take (j : JX x g tr) (F : Fx x) (hp : x.c.pc w = .idle) (e : Exn.plain x (Runtime.take x.c w) = .ok x') : JG x x' body w (.go .take) n g tr := by
  obtain ⟨c, e1, rfl⟩ := plain_ok e
  unfold Runtime.take at e1
  cases hb : x.c.inbox w with
  | nil => rw [hb] at e1; cases e1
  | cons f r =>
    rw [hb] at e1
    simp only at e1
    split at e1 <;> cases e1
    have hl : x.c.loc f = .inbox w := (F.loc.inb w f).2 (by rw [hb]; exact List.mem_cons_self ..)
    have ha : Alive (x.c.loc f) := by rw [hl]; trivial
    exact jg_act j F ha (by simp only [who, hp, hb]) (g1 := g) (by simp only [merge, hp]) j (fun _ => by simp only [post, hp]) (fun p b hc => by simp only [counter, hp] at hc; cases hc) rfl
      (upd_alive ha trivial) (upd_gone (alive_gone ha) (by simp)) (upd_pop (by simp)) (fun p hp => .inl hp)

theorem jg_steal (j : JX x g tr) (F : Fx x) (hp : x.c.pc w = .idle) {v : Nat} (e : Exn.plain x (Runtime.steal x.c w v) = .ok x') : JG x x' body w (.go (.steal v)) n g tr := by
  obtain ⟨c, e1, rfl⟩ := plain_ok e
  unfold Runtime.steal at e1
  cases hb : (x.c.q v).getLast? with
  | none => rw [hb] at e1; cases e1
  | some y =>
    obtain ⟨p, k⟩ := y
    rw [hb] at e1
    simp only at e1
    split at e1
    · cases e1
      have hl : x.c.loc p = .queued v k := (F.loc.queue v p k).2 (List.mem_of_getLast? hb)
      have ha : Alive (x.c.loc p) := by rw [hl]; trivial
      exact jg_none j (by simp only [who, hp]) (by simp only [merge, hp]) (fun _ => by simp only [post, hp]) rfl
        (upd_alive ha trivial) (upd_gone (alive_gone ha) (by simp)) (upd_pop (by simp)) (fun _ => rfl)
    · split at e1 <;> cases e1

theorem jg_joinLoad (j : JX x g tr) (F : Fx x) {f : Nat} (hp : x.c.pc w = .joinLoad f) (e : Exn.plain x (Runtime.joinLoad x.c w f) = .ok x') : JG x x' body w ch n g tr := by
  obtain ⟨c, e1, rfl⟩ := plain_ok e
  have hl : x.c.loc f = .running w := (F.loc.run w f).2 (.inr (.inl hp))
  have ha : Alive (x.c.loc f) := by rw [hl]; trivial
  have hc : ∀ p b, counter body w ch x = some (p, b) → p = f ∧ (b = true → ∀ c, c < x.c.nf → g.par c = .fork f → x.c.loc c = .gone) := fun p b hc => by
    simp only [counter, hp] at hc; cases hc; exact ⟨rfl, by simp⟩
  unfold Runtime.joinLoad at e1
  simp only at e1
  split at e1 <;> cases e1
  · exact jg_act j F ha (by simp only [who, hp]) (g1 := g) (by simp only [merge, hp]) j (fun _ => by simp only [post, hp]) hc rfl
      (upd_alive ha trivial) (upd_gone (alive_gone ha) (by simp)) (upd_pop (by simp)) (fun p hp => .inl hp)
  · exact jg_act j F ha (by simp only [who, hp]) (g1 := g) (by simp only [merge, hp]) j (fun _ => by simp only [post, hp]) hc rfl
      (fun _ => Iff.rfl) (fun _ => Iff.rfl) (upd_pop (by simp)) (fun p hp => .inl hp)

theorem jg_joinSub (j : JX x g tr) (F : Fx x) {f : Nat} (hp : x.c.pc w = .joinSub f) (e : Exn.plain x (Runtime.joinSub x.c w f) = .ok x') : JG x x' body w ch n g tr := by
  obtain ⟨c, e1, rfl⟩ := plain_ok e
  have hl : x.c.loc f = .running w := (F.loc.run w f).2 (.inr (.inr hp))
  have ha : Alive (x.c.loc f) := by rw [hl]; trivial
  have hc : ∀ p b, counter body w ch x = some (p, b) → p = f ∧ (b = true → ∀ c, c < x.c.nf → g.par c = .fork f → x.c.loc c = .gone) := fun p b hc => by
    simp only [counter, hp] at hc; cases hc; exact ⟨rfl, by simp⟩
  unfold Runtime.joinSub at e1
  simp only at e1
  split at e1 <;> cases e1
  all_goals
    exact jg_act j F ha (by simp only [who, hp]) (g1 := g) (by simp only [merge, hp]) j (fun _ => by simp only [post, hp]) hc rfl
      (upd_alive ha trivial) (upd_gone (alive_gone ha) (by simp)) (upd_pop (by simp)) (fun p hp => .inl ((slots_upd (by rfl) p).symm.trans hp))

theorem passJoin_slots {bd : σ → Exn.Act σ V E} {s s' : XS σ V E} {f : Nat} (e : Exn.passJoin bd s w f = .ok s') (p : Nat) (hp : p ≠ f) : (s'.c.fr p).slots = (s.c.fr p).slots := by
  unfold Exn.passJoin at e
  simp only at e
  split at e
  · split at e
    · cases e; simp only [upd_ne _ _ hp]
    · cases e; simp only [upd_ne _ _ hp]
    · cases e
  · cases e

theorem jg_won (i : I x.c.nf x.c.loc x.c.pc (fun f => (x.c.fr f).stolen) x.c.link h g B) (j : JX x g tr) (F : Fx x) {f : Nat} (hl : x.c.loc f = .winning w)
    (hp : x.c.pc w = .joinTake f ∨ ∃ b, x.c.pc w = .finWin f b) (h1 : x'.c.nf = x.c.nf) (h2 : x'.c.loc = upd x.c.loc f (.running w)) (h3 : x'.c.pc = upd x.c.pc w (.run f))
    (h4 : ∀ p, p ≠ f → (x'.c.fr p).slots = (x.c.fr p).slots) : JG x x' body w ch n g tr := by
  have ha : Alive (x.c.loc f) := by rw [hl]; trivial
  refine jg_act j F ha (by rcases hp with hp | ⟨b, hp⟩ <;> simp only [who, hp]) (g1 := g.join f) (by rcases hp with hp | ⟨b, hp⟩ <;> simp only [merge, hp])
    (j.join (alive_gone ha) (F.nopop ha)) (fun _ => by rcases hp with hp | ⟨b, hp⟩ <;> simp only [post, hp]) (fun p b hc => ?_) h1
      (by rw [h2]; exact upd_alive ha trivial) (by rw [h2]; exact upd_gone (alive_gone ha) (by simp)) (by rw [h3]; exact upd_pop (by simp)) (fun p hp => ?_)
  · have : p = f := by rcases hp with hp | ⟨b, hp⟩ <;> simp only [counter, hp] at hc <;> cases hc <;> rfl
    refine ⟨this, fun _ c hcn hpc => ?_⟩
    have := par_fork i hcn hpc
    rcases F.win w f c hl this with h5 | h5
    · have := (F.loc.fresh c).1 h5; omega
    · exact h5
  · by_cases e : p = f
    · subst e; exact .inr (upd_same ..)
    · rw [h4 p e] at hp; exact .inl hp

theorem jg_joinTake {bd : σ → Exn.Act σ V E} (i : I x.c.nf x.c.loc x.c.pc (fun f => (x.c.fr f).stolen) x.c.link h g B) (j : JX x g tr) (F : Fx x) {f : Nat} (hp : x.c.pc w = .joinTake f)
    (e : Exn.joinTake bd x w f = .ok x') : JG x x' body w ch n g tr := by
  have hl : x.c.loc f = .winning w := (F.loc.win w f).2 (.inl hp)
  unfold Exn.joinTake at e
  split at e
  · obtain ⟨h1, h2, h3, h4, h5⟩ := passJoin_eq e
    refine jg_won i j F hl (.inl hp) h1 h2 h3 (fun p hpf => ?_)
    rw [passJoin_slots e p hpf]
    exact slots_upd (by rfl) p
  · cases e

theorem jg_finWin {bd : σ → Exn.Act σ V E} (i : I x.c.nf x.c.loc x.c.pc (fun f => (x.c.fr f).stolen) x.c.link h g B) (j : JX x g tr) (F : Fx x) {f : Nat} {b : Bool} (hp : x.c.pc w = .finWin f b)
    (e : Exn.finWin bd x w f b = .ok x') : JG x x' body w ch n g tr := by
  have hl : x.c.loc f = .winning w := (F.loc.win w f).2 (.inr ⟨b, hp⟩)
  unfold Exn.finWin at e
  simp only at e
  split at e
  · split at e
    · obtain ⟨h1, h2, h3, h4, h5⟩ := passJoin_eq e
      refine jg_won i j F hl (.inr ⟨b, hp⟩) h1 h2 h3 (fun p hpf => ?_)
      rw [passJoin_slots e p hpf]
      exact slots_upd (by rfl) p
    · split at e
      · obtain ⟨h1, h2, h3, h4, h5⟩ := passJoin_eq e
        refine jg_won i j F hl (.inr ⟨b, hp⟩) h1 h2 h3 (fun p hpf => ?_)
        rw [passJoin_slots e p hpf]
        exact slots_upd (by rfl) p
      · cases e
  · cases e

theorem wake_slots {bd : σ → Exn.Act σ V E} {s s' : XS σ V E} {p : Nat} (e : Exn.wake bd s p = .ok s') (q : Nat) : (s'.c.fr q).slots = (s.c.fr q).slots := by
  unfold Exn.wake at e
  split at e
  · cases e; exact slots_upd (by rfl) q
  · cases e

theorem jg_finPop {bd : σ → Exn.Act σ V E} (i : I x.c.nf x.c.loc x.c.pc (fun f => (x.c.fr f).stolen) x.c.link h g B) (j : JX x g tr) (F : Fx x) {p c : Nat} (hp : x.c.pc w = .finPop p c)
    {y : Nat × Nat} {r : List (Nat × Nat)} (hq : x.c.q w = y :: r)
    (e : Exn.Res.bind (Exn.plain x (Runtime.finPop x.c w p c)) (Exn.wake bd · p) = .ok x') : JG x x' body w ch n g tr := by
  cases e0 : Exn.plain x (Runtime.finPop x.c w p c) with
  | ub => rw [e0] at e; cases e
  | no => rw [e0] at e; cases e
  | ok x1 =>
    rw [e0] at e
    obtain ⟨c1, e1, rfl⟩ := plain_ok e0
    obtain ⟨w1, w2, w3, w4, w5⟩ := wake_eq e
    have w6 := wake_slots e
    unfold Runtime.finPop at e1
    obtain ⟨p', c'⟩ := y
    rw [hq] at e1
    simp only at e1
    split at e1 <;> cases e1
    rename_i hh
    obtain ⟨rfl, _⟩ := hh
    have hlp : x.c.loc p' = .queued w c' := (F.loc.queue w p' c').2 (by rw [hq]; exact List.mem_cons_self ..)
    have ha : Alive (x.c.loc p') := by rw [hlp]; trivial
    have hpd : Pend p' c (x.c.pc w) := .inl hp
    have hlc := F.pend hpd
    have hne : p' ≠ c := by rintro rfl; rw [hlc] at hlp; cases hlp
    have hlk := F.flink w p' c hpd
    have hcn : c < x.c.nf := F.lt (by rw [hlc]; simp)
    have hpar : g.par c = .fork p' := ended_fork i hcn hlk
    have j1 : JX x (if answer p' x x' then g.told p' else g) tr := by
      split
      · exact j.told (alive_gone ha) (F.nopop ha)
      · exact j
    have hpar1 : (if answer p' x x' then g.told p' else g).par c = .fork p' := by split <;> exact hpar
    have j2 := j1.act (f := p') n (alive_gone ha) (F.nopop ha)
    have j3 := j2.leave (c := c) (by rw [hlc]; exact fun h => h)
      (fun q hq' y hy => by
        have : q = p' := by
          have h1 : ((if answer p' x x' then g.told p' else g).act n p').par c = .fork p' := hpar1
          rw [h1] at hq'; cases hq'; rfl
        subst this
        exact j2.fp w q c hp y hy)
      (fun q hq' => by
        have h1 : ((if answer p' x x' then g.told p' else g).act n p').par c = .fork p' := hpar1
        rw [h1] at hq'; cases hq')
    have hga : Alive (upd x.c.loc c .gone p') := by rw [upd_ne _ _ hne]; exact ha
    have hlt := F.lt (f := p') (by rw [hlp]; simp)
    unfold JG
    have hwho : who w ch x = some p' := by simp only [who, hp, hq, if_false, reduceCtorEq]
    rw [hwho]
    intro r hr hrt hrc
    simp only [merge, post, hp, hq, if_false, reduceCtorEq]
    rw [w1, w2, w3]
    have j4 := j3.at (loc' := upd (upd x.c.loc c .gone) p' (.running w)) (pc' := upd x.c.pc w (.run p')) (sl' := fun p => (x'.c.fr p).slots = []) (upd_alive hga trivial) (upd_gone (alive_gone hga) (by simp))
      (fun q hq' => .inl (by
        rw [w6 q] at hq'
        exact (slots_upd (by rfl) q).symm.trans hq')) (upd_pop (by simp))
    refine j4.log ⟨by rw [hrt]; exact hlt, by rw [hr, hrt]; simp [Ord.act, upd_same]⟩ (fun q b hc => ?_) (fun q hc => ?_)
    · rw [hrc] at hc; simp only [counter, hp] at hc; cases hc
    · rw [hrc] at hc; simp only [counter, hp] at hc; cases hc

theorem jg_finPop0 (j : JX x g tr) (F : Fx x) {p c : Nat} (hp : x.c.pc w = .finPop p c)
    (hq : x.c.q w = []) (e : Exn.plain x (Runtime.finPop x.c w p c) = .ok x') : JG x x' body w ch n g tr := by
  obtain ⟨c1, e1, rfl⟩ := plain_ok e
  unfold Runtime.finPop at e1
  rw [hq] at e1
  simp only at e1
  split at e1 <;> cases e1
  have hlc := F.pend (.inl hp : Pend p c (x.c.pc w))
  have hcn : c < x.c.nf := F.lt (by rw [hlc]; simp)
  have j1 := j.at (loc' := x.c.loc) (pc' := upd x.c.pc w (.finDec p c (decide (x.c.stk p = x.c.wk w)))) (sl' := fun p => (x.c.fr p).slots = []) (fun _ => Iff.rfl) (fun _ => Iff.rfl) (fun _ h => .inl h) (upd_pop (by simp))
  have j2 := j1.act (f := c) n (by rw [hlc]; simp) (fun v q hv => by
    by_cases e : v = w
    · subst e; rw [upd_same] at hv; cases hv
    · rw [upd_ne _ _ e] at hv
      have := F.pend (.inl hv : Pend q c (x.c.pc v))
      rw [hlc] at this; cases this; exact e rfl)
  unfold JG
  have hwho : who w ch x = some c := by simp only [who, hp, hq, if_true]
  rw [hwho]
  intro r hr hrt hrc
  simp only [merge, post, hp, hq, if_true]
  refine j2.log ⟨by rw [hrt]; exact hcn, by rw [hr, hrt]; simp [Ord.act, upd_same]⟩ (fun q b hc => ?_) (fun q hc => ?_)
  · rw [hrc] at hc; simp only [counter, hp] at hc; cases hc
  · rw [hrc] at hc; simp only [counter, hp] at hc; cases hc

theorem jg_finDec {pend : σ → Nat} (i : I x.c.nf x.c.loc x.c.pc (fun f => (x.c.fr f).stolen) x.c.link h g B) (j : JX x g tr) (F : Fx x) (S : Fs pend x) (hf : Few x.c) {p c : Nat} {b : Bool} (hp : x.c.pc w = .finDec p c b)
    (e : Exn.plain x (Runtime.finDec x.c w p c b) = .ok x') : JG x x' body w ch n g tr := by
  obtain ⟨c1, e1, rfl⟩ := plain_ok e
  have hpd : Pend p c (x.c.pc w) := .inr ⟨b, hp⟩
  have hlc := F.pend hpd
  have hlk := F.flink w p c hpd
  have hcn : c < x.c.nf := F.lt (by rw [hlc]; simp)
  have hpar : g.par c = .fork p := ended_fork i hcn hlk
  have ha : Alive (x.c.loc p) := F.kid c p hlk (by rw [hlc]; simp) (by rw [hlc]; simp)
  have hne : p ≠ c := by rintro rfl; rw [hlc] at ha; exact ha
  have hpn : p < x.c.nf := F.lt (by rintro e; rw [e] at ha; exact ha)
  have hns : ¬ (x.c.fr p).slots = [] := S.slot c p hlk (by rw [hlc]; simp) (by rw [hlc]; simp)
  have j1 := j.act (f := c) n (by rw [hlc]; simp) (fun v q hv => by
    have := F.pend (.inl hv : Pend q c (x.c.pc v))
    rw [hlc] at this; cases this
    rw [hp] at hv; cases hv)
  have j2 := j1.give (p := p) ((g.act n c).L c) hns ha
  have he : (g.act n c).ended c = { g.act n c with D := upd (g.act n c).D p ((g.act n c).L c ++ (g.act n c).D p) } := by
    unfold Ord.ended
    rw [show (g.act n c).par c = .fork p from hpar]
  rw [← he] at j2
  have hD : ∀ y ∈ (g.act n c).L c, y ∈ ((g.act n c).ended c).D p := fun y hy => by
    rw [he]; simp only [upd_same]; exact List.mem_append.2 (.inl hy)
  have hLe : ((g.act n c).ended c).L = (g.act n c).L := by rw [he]
  have hpe : ((g.act n c).ended c).par = g.par := by rw [he]; rfl
  have j3 := j2.leave (c := c) (by rw [hlc]; exact fun h => h)
    (fun q hq y hy => by
      rw [hpe, hpar] at hq; cases hq
      rw [hLe] at hy
      exact .inl (hD y hy))
    (fun q hq => by rw [hpe, hpar] at hq; cases hq)
  have hga : Alive (upd x.c.loc c .gone p) := by rw [upd_ne _ _ hne]; exact ha
  have hnL : n ∈ (g.act n c).L c := by simp [Ord.act, upd_same]
  have fin : ∀ (loc' : Nat → Loc) (pc' : Nat → Pc) (fr' : Nat → Fr σ (Except E V)), J x.c.nf loc' pc' (fun p => (fr' p).slots = []) ((g.act n c).ended c) tr →
      ∀ r : Rec L, r.no = n → r.task = c → r.cnt = counter body w ch x → J x.c.nf loc' pc' (fun p => (fr' p).slots = []) ((g.act n c).ended c) (r :: tr) := by
    intro loc' pc' fr' j4 r hr hrt hrc
    refine j4.log ⟨by rw [hrt]; exact hcn, by rw [hr, hrt, hLe]; exact hnL⟩ (fun q b hc => ?_) (fun q hc => ?_)
    · rw [hrc] at hc; simp only [counter, hp] at hc; cases hc
      exact ⟨hpn, .inr ⟨rfl, by rw [hr]; exact hD _ hnL⟩⟩
    · rw [hrc] at hc; simp only [counter, hp] at hc; cases hc
  have hsl : ∀ k l d, ∀ q, (upd (upd x.c.fr p { x.c.fr p with kids := k }) p { x.c.fr p with kids := k, join := l, joined := d } q).slots = [] → (x.c.fr q).slots = [] ∨ ((g.act n c).ended c).D q = [] := by
    intro k l d q hq
    simp only [upd_apply] at hq
    left
    split at hq
    · rename_i e; rw [e]; exact hq
    · exact hq
  unfold JG
  have hwho : who w ch x = some c := by simp only [who, hp]
  rw [hwho]
  simp only [merge, post, hp]
  unfold Runtime.finDec Runtime.report at e1
  simp only [upd_same] at e1
  split at e1
  · split at e1
    · cases e1
      exact fin _ _ _ (j3.at (upd_alive hga trivial) (upd_gone (alive_gone hga) (by simp)) (hsl _ _ _) (upd_pop (by simp)))
    · cases e1
      exact fin _ _ _ (j3.at (fun _ => Iff.rfl) (fun _ => Iff.rfl) (hsl _ _ _) (upd_pop (by simp)))
  · cases e1

theorem jg_finLose (j : JX x g tr) {b : Bool} (hp : x.c.pc w = .finLose b) (e : Exn.plain x (Runtime.finLose x.c w b) = .ok x') : JG x x' body w ch n g tr := by
  obtain ⟨c1, e1, rfl⟩ := plain_ok e
  unfold Runtime.finLose at e1
  simp only at e1
  cases b <;> simp only [if_true, if_false, reduceCtorEq, Bool.false_eq_true] at e1 <;> split at e1 <;> cases e1
  all_goals
    exact jg_none j (by simp only [who, hp]) (by simp only [merge, hp]) (fun _ => by simp only [post, hp]) rfl (fun _ => Iff.rfl) (fun _ => Iff.rfl) (upd_pop (by simp)) (fun _ => rfl)

theorem jg_switchRel (j : JX x g tr) {b : Bool} (hp : x.c.pc w = .switchRel b) (e : Exn.plain x (Runtime.switchRel x.c w b) = .ok x') : JG x x' body w ch n g tr := by
  obtain ⟨c1, e1, rfl⟩ := plain_ok e
  unfold Runtime.switchRel at e1
  simp only at e1
  cases b <;> simp only [if_true, if_false, reduceCtorEq, Bool.false_eq_true] at e1 <;> split at e1 <;> cases e1
  all_goals
    exact jg_none j (by simp only [who, hp]) (by simp only [merge, hp]) (fun _ => by simp only [post, hp]) rfl (fun _ => Iff.rfl) (fun _ => Iff.rfl) (upd_pop (by simp)) (fun _ => rfl)

theorem jg_selfSteal (j : JX x g tr) (F : Fx x) (hp : x.c.pc w = .selfSteal) (e : Exn.plain x (Runtime.selfSteal x.c w) = .ok x') : JG x x' body w ch n g tr := by
  obtain ⟨c1, e1, rfl⟩ := plain_ok e
  unfold Runtime.selfSteal at e1
  cases hq : x.c.q w with
  | nil =>
    rw [hq] at e1
    simp only at e1
    split at e1 <;> cases e1
    exact jg_none j (by simp only [who, hp]) (by simp only [merge, hp]) (fun _ => by simp only [post, hp]) rfl (fun _ => Iff.rfl) (fun _ => Iff.rfl) (upd_pop (by simp)) (fun _ => rfl)
  | cons y r =>
    obtain ⟨p, c⟩ := y
    rw [hq] at e1
    cases e1
    have hlp : x.c.loc p = .queued w c := (F.loc.queue w p c).2 (by rw [hq]; exact List.mem_cons_self ..)
    have ha : Alive (x.c.loc p) := by rw [hlp]; trivial
    exact jg_none j (by simp only [who, hp]) (by simp only [merge, hp]) (fun _ => by simp only [post, hp]) rfl
      (upd_alive ha trivial) (upd_gone (alive_gone ha) (by simp)) (upd_pop (by simp)) (fun _ => rfl)

theorem jg_stole {bd : σ → Exn.Act σ V E} (j : JX x g tr) (F : Fx x) {p : Nat} (hp : x.c.pc w = .stole p)
    (e : Exn.Res.bind (Exn.plain x (Runtime.stole x.c w p)) (Exn.wake bd · p) = .ok x') : JG x x' body w ch n g tr := by
  cases e0 : Exn.plain x (Runtime.stole x.c w p) with
  | ub => rw [e0] at e; cases e
  | no => rw [e0] at e; cases e
  | ok x1 =>
    rw [e0] at e
    obtain ⟨c1, e1, rfl⟩ := plain_ok e0
    obtain ⟨w1, w2, w3, w4, w5⟩ := wake_eq e
    have w6 := wake_slots e
    unfold Runtime.stole at e1
    split at e1 <;> cases e1
    have hl : x.c.loc p = .stolenBy w := (F.loc.sto w p).2 hp
    have ha : Alive (x.c.loc p) := by rw [hl]; trivial
    refine jg_act j F ha (by simp only [who, hp]) (g1 := if answer p x x' then g.told p else g) (by simp only [merge, hp]) ?_ (fun _ => by simp only [post, hp])
      (fun p b hc => by simp only [counter, hp] at hc; cases hc) w1
      (by rw [w2]; exact upd_alive ha trivial) (by rw [w2]; exact upd_gone (alive_gone ha) (by simp)) (by rw [w3]; exact upd_pop (by simp)) (fun q hq => .inl (by
        rw [w6 q] at hq
        exact (slots_upd (by rfl) q).symm.trans hq))
    split
    · exact j.told (alive_gone ha) (F.nopop ha)
    · exact j

end Verif.Hb
