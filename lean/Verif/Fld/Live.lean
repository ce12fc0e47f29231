import Verif.Fld.Props
import Verif.Mem.Sim

/-!
C78: no frame is used after its task has ended.
-/
namespace Verif.Fld
open Verif.Runtime (Ev Alive status forkPar)
open Verif.Exn (XS Choice)
open Verif.Mem (Act)
open Verif.Hb (Fx fx_of reach_x who)

variable {σ V E L : Type} [Inhabited E] [DecidableEq L] {body : σ → Act σ V E L} {pend : σ → Nat} {dirty : σ → Prop} {may : E → Prop} {ok : (σ → Prop) → σ → Prop} {m : L → E}

/-- A task that has ended holds no frame. -/
theorem done_dead {body : σ → Exn.Act σ V E} {may : E → Prop} (hd : Exn.Disc body pend dirty) {s : XS σ V E} (h : Exn.Reach body pend may s) {f : Nat} {v : Except E V}
    (hv : Ev.done f v ∈ s.c.log) : ¬ Alive (s.c.loc f) ∧ f < s.c.nf := by
  obtain ⟨es, r, hr, hrel⟩ := Exn.reach_rel hd h fun _ => .nil
  have hi := Verif.Runtime.reach_inv (Exn.disc_tgt hd) hr
  have b := hrel.base
  have G := hi.log
  have h1 : status f r.log = .done :=
    Mem.ended_iff.1 ⟨v, Mem.done_mode (Verif.Runtime.history_legal (Exn.disc_tgt hd) hr) ((b.log.doneIff f v).1 hv)⟩
  rw [← b.loc, ← b.nf]
  constructor
  · intro ha
    cases hl : r.loc f with
    | unborn => rw [hl] at ha; exact ha
    | finishing w => rw [hl] at ha; exact ha
    | gone => rw [hl] at ha; exact ha
    | running w =>
      rcases (hi.loc.run w f).1 hl with h2 | h2 | h2
      · have := G.rn w f h2; rw [h1] at this; cases this
      · have := G.jl w f h2; rw [h1] at this; cases this
      · have := G.js w f h2; rw [h1] at this; cases this
    | stolenBy w => have := G.sb w f hl; rw [h1] at this; exact this
    | queued w c => have := G.qd w f c hl; rw [h1] at this; cases this
    | inbox w => have := G.ib w f hl; rw [h1] at this; exact this
    | callwait c => have := G.cw f c hl; rw [h1] at this; cases this
    | parked => have := G.pk f hl; rw [h1] at this; cases this
    | winning w => have := G.wi w f hl; rw [h1] at this; cases this
  · rcases Nat.lt_or_ge f r.nf with h2 | h2
    · exact h2
    · have := G.un f ((hi.loc.fresh f).2 h2)
      rw [h1] at this; cases this

/-- Every frame a step uses is that of a task that is alive, or new. -/
theorem touch_alive {x : XS σ V E} (F : Fx x) {w : Nat} {ch : Choice E} : ∀ y ∈ touch body w ch x, y.1 = x.c.nf ∨ Alive (x.c.loc y.1) := by
  have par : ∀ t p, x.c.pc w = .run t → (x.c.link t = .call p ∨ forkPar (x.c.link t) = some p) → Alive (x.c.loc p) := by
    intro t p hp hl
    have ht := (F.loc.run w t).2 (.inl hp)
    rcases hl with hl | hl
    · rw [(F.callw p t).2 ⟨hl, by rw [ht]; trivial⟩]; trivial
    · exact F.kid t p hl (by rw [ht]; simp) (by rw [ht]; simp)
  have fin : ∀ p c, (x.c.pc w = .finPop p c ∨ ∃ b, x.c.pc w = .finDec p c b) → Alive (x.c.loc p) := by
    intro p c hp
    have hl := (F.loc.fin w c).2 ⟨p, hp⟩
    exact F.kid c p (F.flink w p c hp) (by rw [hl]; simp) (by rw [hl]; simp)
  intro y hy
  unfold touch at hy
  split at hy
  · split at hy
    · rename_i f r hb
      have hl := (F.loc.inb w f).2 (by rw [hb]; exact List.mem_cons_self ..)
      simp only [List.mem_cons, List.not_mem_nil, or_false] at hy
      rcases hy with rfl | rfl | rfl <;> (right; rw [hl]; trivial)
    · cases hy
  · rename_i f hp
    have self : Alive (x.c.loc f) := by rw [(F.loc.run w f).2 (.inl hp)]; trivial
    obtain ⟨t, ht, hw⟩ := why F (body := body) (w := w) (ch := ch) y (by unfold touch; simp only [hp]; exact hy)
    have : t = f := by simp only [who, hp] at ht; cases ht; rfl
    subst this
    rcases hw with ⟨h1, _⟩ | ⟨h1, _⟩ | ⟨h1, _⟩
    · right; rw [h1]; exact self
    · exact .inl h1
    · exact .inr (par t _ hp h1)
  · rename_i f hp
    have self : Alive (x.c.loc f) := by rw [(F.loc.run w f).2 (.inr (.inl hp))]; trivial
    simp only [List.mem_cons, List.not_mem_nil, or_false] at hy
    rcases hy with rfl | rfl <;> exact .inr self
  · rename_i f hp
    have self : Alive (x.c.loc f) := by rw [(F.loc.run w f).2 (.inr (.inr hp))]; trivial
    simp only [List.mem_cons, List.not_mem_nil, or_false] at hy
    rcases hy with rfl | rfl | rfl <;> exact .inr self
  · rename_i f hp
    have self : Alive (x.c.loc f) := by rw [(F.loc.win w f).2 (.inl hp)]; trivial
    rcases List.mem_cons.1 hy with rfl | hy
    · exact .inr self
    rcases List.mem_cons.1 hy with rfl | hy
    · exact .inr self
    rcases List.mem_cons.1 hy with rfl | hy
    · exact .inr self
    exact rethrow_why (P := fun y => y.1 = x.c.nf ∨ Alive (x.c.loc y.1)) (fun _ _ => .inr self) y hy
  · rename_i p c hp
    have self := fin p c (.inl hp)
    split at hy <;> simp only [List.mem_cons, List.not_mem_nil, or_false] at hy
    · subst hy; exact .inr self
    · rcases hy with rfl | rfl | rfl <;> exact .inr self
  · rename_i p c b hp
    have self := fin p c (.inr ⟨b, hp⟩)
    simp only [List.mem_cons, List.not_mem_nil, or_false] at hy
    subst hy; exact .inr self
  · rename_i f b hp
    have self : Alive (x.c.loc f) := by rw [(F.loc.win w f).2 (.inr ⟨b, hp⟩)]; trivial
    rcases List.mem_cons.1 hy with rfl | hy
    · exact .inr self
    rcases List.mem_cons.1 hy with rfl | hy
    · exact .inr self
    rcases List.mem_cons.1 hy with rfl | hy
    · exact .inr self
    exact rethrow_why (P := fun y => y.1 = x.c.nf ∨ Alive (x.c.loc y.1)) (fun _ _ => .inr self) y hy
  · rename_i f hp
    have self : Alive (x.c.loc f) := by rw [(F.loc.sto w f).2 hp]; trivial
    simp only [List.mem_cons, List.not_mem_nil, or_false] at hy
    rcases hy with rfl | rfl | rfl <;> exact .inr self
  all_goals cases hy

/-- C78: a step of a worker uses only frames that have been made, by itself at the latest, and whose tasks had not ended before the step: once a task has returned or thrown nobody uses its frame, neither the worker that
ran it, nor its parent, nor its children. -/
theorem C78_live (hd : Mem.Disc body pend dirty) {o o' : FS σ V E L} {w : Nat} {ch : Choice E} (h : Reach body pend may ok m o) (hf : Runtime.Few o.a.s.x.c) (hal : Mem.Allowed may ch)
    (hs : step body w ch o = .ok o') : ∃ new, o'.tr = new ++ o.tr ∧ ∀ r ∈ new, r.frame < o'.a.s.x.c.nf ∧ ∀ v, Ev.done r.frame v ∉ o.a.s.x.c.log := by
  have i' := (reach_fi hd (Reach.step h hf hal hs)).1
  have hx := reach_x (reach_hb h)
  have F := fx_of (Mem.disc_ctl hd) hx
  unfold step at hs
  split at hs <;> cases hs
  refine ⟨_, rfl, fun r hr => ⟨(i'.cls r (List.mem_append_left _ hr)).1, fun v hv => ?_⟩⟩
  obtain ⟨h1, h2⟩ := done_dead (Mem.disc_ctl hd) hx hv
  obtain ⟨y, hy, rfl⟩ := List.mem_map.1 hr
  rcases touch_alive F y hy with h3 | h3
  · exact absurd h2 (by show ¬ y.1 < _; omega)
  · exact h1 h3

end Verif.Fld
