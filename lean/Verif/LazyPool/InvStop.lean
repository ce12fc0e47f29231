import Verif.LazyPool.InvSub

/-! Shutdown. -/
namespace Verif.LazyPool
open Verif.EventCount

/-- The destructor has advanced the epoch of domain `i`. -/
def told (d : DPc) (i : Nat) : Prop :=
  match d with
  | .alive => False
  | .notify k => i < k
  | .rousing k => i ≤ k
  | .joining | .gone => True

/-- The destructor's `notify_all` of domain `i` has returned. -/
def roused (d : DPc) (i : Nat) : Prop :=
  match d with
  | .alive => False
  | .notify k | .rousing k => i < k
  | .joining | .gone => True

/-- On the way into `wait`, or in it. -/
def retiring : Pc → Bool
  | .dec | .chk | .look | .asleep => true
  | _ => false

structure Stop (c : Cfg) (s : St) : Prop where
  told : ∀ w, w < c.N → told s.dpc (c.dom w) → retiring (s.pc w) = true → s.at_ w < s.n (c.dom w)
  up : ∀ w, w < c.N → roused s.dpc (c.dom w) → s.pc w ≠ .asleep
  gone : s.dpc = .gone → ∀ w, w < c.N → s.pc w = .fin4
  dom : ∀ i, s.dpc = .notify i → i ≤ c.D
  dom' : ∀ i, s.dpc = .rousing i → i < c.D

theorem start_stop (c : Cfg) : Stop c (St.start c) := by
  constructor <;> simp [St.start, LazyPool.told, roused]

set_option maxHeartbeats 4000000 in
theorem stop_step {c : Cfg} (hc : c.Ok) {a : Actor} {s s' : St} (h : Counts c s) (hd : Data c s) (few : Few c s) (hs : Stop c s)
    (st : Step c a s s') : Stop c s' := by
  have hl := fun w => look_at h hd few (w := w)
  have hm := fun w => must_of h (w := w)
  have hat := hd.atle
  have hst := hd.dstop
  have hdom := hc.dom
  have e1 : reg .asleep = true := rfl
  have e2 : retiring .look = true := rfl
  have e3 : ∀ i, roused s.dpc i → LazyPool.told s.dpc i := fun i => by cases s.dpc <;> simp [roused, LazyPool.told] <;> omega
  obtain ⟨h1, h2, h3, h4, h5⟩ := hs
  clear h hd few hc
  constructor
  · cases st <;>
      simp only [doWake, doPop, doPrep, doCancel, St.bump, doUnthief, doSleep, doAct, doNext, St.go, upd_apply, LazyPool.rouse, Eligible] at * <;>
      grind [retiring, LazyPool.told]
  · cases st <;>
      simp only [doWake, doPop, doPrep, doCancel, St.bump, doUnthief, doSleep, doAct, doNext, St.go, upd_apply, LazyPool.rouse, Eligible] at * <;>
      grind [retiring, LazyPool.told, roused]
  · cases st <;>
      simp only [doWake, doPop, doPrep, doCancel, St.bump, doUnthief, doSleep, doAct, doNext, St.go, upd_apply, LazyPool.rouse, Eligible] at * <;>
      grind
  · cases st <;>
      simp only [doWake, doPop, doPrep, doCancel, St.bump, doUnthief, doSleep, doAct, doNext, St.go] at * <;>
      grind
  · cases st <;>
      simp only [doWake, doPop, doPrep, doCancel, St.bump, doUnthief, doSleep, doAct, doNext, St.go] at * <;>
      grind

theorem reach_stop {c : Cfg} (hc : c.Ok) {s : St} (h : Reach c s) : Stop c s := by
  induction h with
  | start => exact start_stop c
  | step hr few st ih => exact stop_step hc (reach_counts hc hr) (reach_data hc hr) few ih st

end Verif.LazyPool
