import Verif.Hb.Model
import Verif.Mem.Props
import Verif.Exn.Props

/-!
What the program orders, the runtime orders: the invariant.
-/
namespace Verif.Hb
open Verif.Runtime (State Res Fr Pc Loc Link Alive InvLoc InvLink Few forkPar tok upd upd_apply upd_same upd_ne maxU16)
open Verif.Exn (XS Choice)
open Verif.Mem (MS Act)

/-- What Verif.Runtime.Inv knows. -/
structure Fx {σ V E : Type} (x : XS σ V E) : Prop where
  loc : InvLoc x.c
  callw : ∀ p c, x.c.loc p = .callwait c ↔ (x.c.link c = .call p ∧ Alive (x.c.loc c))
  qlink : ∀ w p c, (p, c) ∈ x.c.q w → forkPar (x.c.link c) = some p
  qborn : ∀ w p c, (p, c) ∈ x.c.q w → x.c.loc c ≠ .unborn
  flink : ∀ w p c, (x.c.pc w = .finPop p c ∨ ∃ b, x.c.pc w = .finDec p c b) → forkPar (x.c.link c) = some p
  kid : ∀ c p, forkPar (x.c.link c) = some p → x.c.loc c ≠ .unborn → x.c.loc c ≠ .gone → Alive (x.c.loc p)
  /-- All the children of a task that has won its join have reported. -/
  win : ∀ w p c, x.c.loc p = .winning w → forkPar (x.c.link c) = some p → x.c.loc c = .unborn ∨ x.c.loc c = .gone
  /-- Also of one that has not been stolen. -/
  run0 : ∀ w p c, x.c.pc w = .run p → (x.c.fr p).stolen = 0 → forkPar (x.c.link c) = some p → x.c.loc c = .unborn ∨ x.c.loc c = .gone
  dec : ∀ w p c b, x.c.pc w = .finDec p c b → (x.c.fr p).stolen ≠ 0 ∨ (∃ v, x.c.loc p = .stolenBy v) ∨
    ∃ v c', x.c.loc p = .queued v c' ∧ (c' = c ∨ x.c.loc c' = .gone)
  steal : ∀ p, Alive (x.c.loc p) → (x.c.fr p).steal = (x.c.fr p).stolen
  head : ∀ w p c y, x.c.pc w = .finPop p c → (x.c.q w).head? = some y → y.2 = c
  idl : ∀ w, x.c.pc w = .idle → x.c.q w = []
  aw : ∀ p, (∃ w c, x.c.loc p = .queued w c) ∨ (∃ w, x.c.loc p = .stolenBy w) → x.aw p = some (.fork (x.c.fr p).steal)
  older : ∀ c p, c < x.c.nf → forkPar (x.c.link c) = some p → p < c
  js : ∀ w f, x.c.pc w = .joinSub f → (x.c.fr f).stolen ≠ 0
  one : Few x.c → ∀ w p c b, x.c.pc w = .finDec p c b → (x.c.fr p).join = 1 → x.c.loc p = .parked

theorem fx_of {σ V E : Type} {body : σ → Exn.Act σ V E} {pend : σ → Nat} {dirty : σ → Prop} {may : E → Prop} (hd : Exn.Disc body pend dirty) {s : XS σ V E}
    (h : Exn.Reach body pend may s) : Fx s := by
  obtain ⟨es, r, hr, hrel⟩ := Exn.reach_rel hd h fun _ => .nil
  have hi := Verif.Runtime.reach_inv (Exn.disc_tgt hd) hr
  have b := hrel.base
  have L := hi.loc
  have K := hi.link
  have C := hi.count
  have nk : ∀ p, Alive (r.loc p) → (r.fr p).kids = [] → ∀ c, forkPar (r.link c) = some p → r.loc c = .unborn ∨ r.loc c = .gone := by
    intro p ha hk c hc
    have := K.kids p ha c
    rw [hk] at this
    by_cases h1 : r.loc c = .unborn
    · exact .inl h1
    · by_cases h2 : r.loc c = .gone
      · exact .inr h2
      · exact absurd (this.2 ⟨hc, h1, h2⟩) (by simp)
  refine ⟨?_, ?_, ?_, ?_, ?_, ?_, ?_, ?_, ?_, ?_, ?_, ?_, ?_, ?_, ?_, ?_⟩
  · obtain ⟨h1, h2, h3, h4, h5, h6, h7, h8, h9⟩ := L
    rw [b.loc, b.nf] at h1
    rw [b.loc, b.pc] at h2 h3 h4 h5
    rw [b.loc, b.q] at h6
    rw [b.loc, b.inbox] at h7
    rw [b.q] at h8
    rw [b.inbox] at h9
    exact ⟨h1, h2, h3, h4, h5, h6, h7, h8, h9⟩
  · have := K.callw; rw [b.loc, b.link] at this; exact this
  · have := K.qlink; rw [b.q, b.link] at this; exact this
  · have := K.qborn; rw [b.q, b.loc] at this; exact this
  · intro w p c hp
    rw [← b.pc] at hp
    rw [← b.link]
    rcases hp with hp | ⟨x, hp⟩
    · exact K.flink w p c hp
    · exact K.flink' w p c x hp
  · have := K.kid; rw [b.loc, b.link] at this; exact this
  · intro w p c hp hc
    rw [← b.loc] at hp ⊢
    rw [← b.link] at hc
    refine nk p (by rw [hp]; trivial) ?_ c hc
    have := C.join p (by rw [hp]; trivial)
    rw [hp] at this
    exact this
  · intro w p c hp h0 hc
    rw [← b.pc] at hp
    rw [← b.stolen] at h0
    rw [← b.link] at hc
    rw [← b.loc]
    have hl := (L.run w p).2 (.inl hp)
    refine nk p (by rw [hl]; trivial) ?_ c hc
    have := C.cnt p (by rw [hl]; trivial)
    rw [hl, h0] at this
    simp only [tok] at this
    exact List.eq_nil_of_length_eq_zero (by omega)
  · intro w p c y hp
    rw [← b.pc] at hp
    rw [← b.loc, ← b.stolen]
    have hl := (L.fin w c).2 ⟨p, .inr ⟨y, hp⟩⟩
    have hc := K.flink' w p c y hp
    have ha := K.kid c p hc (by rw [hl]; simp) (by rw [hl]; simp)
    have hm : c ∈ (r.fr p).kids := (K.kids p ha c).2 ⟨hc, by rw [hl]; simp, by rw [hl]; simp⟩
    have hn := C.cnt p ha
    have hpos := List.length_pos_of_mem hm
    by_cases h0 : (r.fr p).stolen = 0
    · right
      cases hx : r.loc p with
      | stolenBy v => exact .inl ⟨v, rfl⟩
      | queued v c' =>
        refine .inr ⟨v, c', rfl, ?_⟩
        have hq := (L.queue v p c').1 hx
        by_cases hg : r.loc c' = .gone
        · exact .inr hg
        · left
          have hm' : c' ∈ (r.fr p).kids := (K.kids p ha c').2 ⟨K.qlink v p c' hq, K.qborn v p c' hq, hg⟩
          rw [hx, h0] at hn
          simp only [tok] at hn
          obtain ⟨a, e⟩ := List.length_eq_one_iff.1 (show (r.fr p).kids.length = 1 by omega)
          rw [e] at hm hm'
          rw [List.mem_singleton.1 hm, List.mem_singleton.1 hm']
      | _ =>
        exfalso
        rw [hx, h0] at hn
        simp only [tok] at hn
        omega
    · exact .inl h0
  · intro p ha
    rw [← b.loc] at ha
    rw [← b.steal, ← b.stolen]
    exact C.steal p ha
  · intro w p c y hp hy
    rw [← b.pc] at hp
    rw [← b.q] at hy
    exact hi.q.fp w p c hp y hy
  · have := hi.q.idl; rw [b.pc, b.q] at this; exact this
  · intro p hp
    have := hrel.aw p
    rcases hp with ⟨w, c, hp⟩ | ⟨w, hp⟩ <;> rw [hp] at this <;> exact this
  · have := K.olderF; rw [b.nf, b.link] at this; exact this
  · intro w f hp
    rw [← b.pc] at hp
    rw [← b.stolen]
    have hl := (L.run w f).2 (.inr (.inr hp))
    rw [← C.steal f (by rw [hl]; trivial)]
    exact C.js w f hp
  · intro hf w p c y hp hj
    rw [← b.pc] at hp
    rw [← b.join] at hj
    rw [← b.loc]
    exact Verif.Runtime.hw_of L K C (fun p => by rw [b.stolen, b.loc]; exact hf p) w p c y hp hj

/-- A forked child that has ended and has not told its parent. -/
def Pend (p c : Nat) (q : Pc) : Prop := q = .finPop p c ∨ ∃ b, q = .finDec p c b

/-- Who has the task knows `B f`. -/
def HK (h : Clk) (B : Nat → List Nat) (f : Nat) : Loc → Prop
  | .running w => B f ⊆ h.kn w
  | .stolenBy w => B f ⊆ h.kn w
  | .winning w => B f ⊆ h.kn w ∧ h.kj f ⊆ h.kn w
  | .queued w _ => B f ⊆ h.kq f ∧ B f ⊆ h.kn w
  | .inbox _ => B f ⊆ h.kb f
  | .callwait c => B f ⊆ B c
  | .parked => B f ⊆ h.kj f
  | _ => True

def ParOk : Par → Link → Prop
  | .root, .root => True
  | .fork p, .fork p' _ => p = p'
  | .call p, .call p' => p = p'
  | _, _ => False

structure I (nf : Nat) (loc : Nat → Loc) (pc : Nat → Pc) (stolen : Nat → Nat) (link : Nat → Link) (h : Clk) (g : Ord) (B : Nat → List Nat) : Prop where
  lb : ∀ f, Alive (loc f) → g.L f ⊆ B f
  hk : ∀ f, HK h B f (loc f)
  dd : ∀ p, Alive (loc p) → ∀ e ∈ g.D p, e ∈ h.kj p ∨ e ∈ B p ∨ ∃ w c, Pend p c (pc w) ∧ e ∈ h.kn w
  kj : ∀ p, Alive (loc p) → h.kj p ≠ [] → stolen p ≠ 0 ∨ (∃ w, loc p = .stolenBy w) ∨ ∃ w c, loc p = .queued w c ∧ loc c = .gone
  fin : ∀ w p c, Pend p c (pc w) → g.L c ⊆ h.kn w
  root : ∀ f k, h.kr f = some k → g.L f ⊆ k ∧ loc f = .gone
  par : ∀ c, c < nf → ParOk (g.par c) (link c)
  kid : ∀ w p c, loc p = .queued w c → g.kid p = c
  tk : ∀ t, g.T t ⊆ h.kt t

/-- The invariant of a state. -/
def Inv {σ V E : Type} (x : XS σ V E) (h : Clk) (g : Ord) : Prop :=
  ∃ B, I x.c.nf x.c.loc x.c.pc (fun f => (x.c.fr f).stolen) x.c.link h g B

end Verif.Hb
