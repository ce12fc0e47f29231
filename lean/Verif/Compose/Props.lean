import Verif.Compose.Backward

/-!
C55: the runtime of awaitables.hpp, promise.hpp and resume.hpp running on the deque of deque.hpp, every atomic access of both
interleaved in any order: what the user relies on is true of the whole, not only of the runtime over queues whose operations are
instantaneous. The events, `Ser` and `Legal` are those of Verif.Runtime.Spec.
-/
namespace Verif.Compose
open Verif.Runtime
open Verif.Deque (wok_none)
variable {σ V : Type} {maxCap cap : Nat} {body : σ → Act σ V} {pend : σ → Nat}

/-- Over the specification of the queue. -/
theorem to_spec (hcap : ∃ k, cap = 2 ^ k) {x : CS σ V (implObj maxCap cap).D} (h : Reach body pend (implObj maxCap cap) x) :
    Reach body pend specObj (absS x fun _ => none) := (backward hcap h).2 _ (fun _ => wok_none _)

section
variable (hd : Disc body pend) (hp : ∀ x, pend x ≤ 65534) (hcap : ∃ k, cap = 2 ^ k)
include hd hp hcap

/-- Every execution over the real deques is explained by one in which pushes, pops and steals happen in an instant: the same tasks
are resumed, suspended and finished with the same results on the same workers in the same order. -/
theorem same_history {x : CS σ V (implObj maxCap cap).D} (h : Reach body pend (implObj maxCap cap) x) :
    ∃ s : State σ V, ReachAny body pend s ∧ s.log = x.c.log := by
  obtain ⟨Q, L, P, hr, _⟩ := forward hd hp (to_spec hcap h)
  exact ⟨_, hr, rfl⟩

/-- C55: no assertion of the runtime or of a deque fails and nothing undefined happens. -/
theorem composed_no_ub {x : CS σ V (implObj maxCap cap).D} (h : Reach body pend (implObj maxCap cap) x) :
    ¬ Step body (implObj maxCap cap) x .ub ∧ ∀ w, (x.dq w).bad = false := by
  have hb := backward hcap h
  refine ⟨fun hs => ?_, fun w => (hb.1.inv w).good⟩
  obtain ⟨ws, h1, h2⟩ := pre_step (pend := pend) hb.1 hs
  obtain ⟨Q, L, P, hr, hrel⟩ := forward hd hp (hb.2 ws h1)
  exact sim_step hd hp hr hrel h2

/-- C55: the rules of Verif.Runtime.Spec are kept: in particular a task passes its join only when all its children have returned,
and is resumed once per suspension. -/
theorem composed_legal {x : CS σ V (implObj maxCap cap).D} (h : Reach body pend (implObj maxCap cap) x) : Legal x.c.log := by
  obtain ⟨s, hr, e⟩ := same_history hd hp hcap h
  rw [← e]
  exact history_legal hd (reach_of_bounded hd hp hr).1

/-- C55: a task that passes its join has the results of all its children. -/
theorem composed_join {x : CS σ V (implObj maxCap cap).D} (h : Reach body pend (implObj maxCap cap) x) {f w : Nat}
    {l1 l2 : List (Ev σ V)} (hl : x.c.log = l2 ++ .resume f w :: l1) (hj : status f l1 = .waiting .join) :
    ∀ c ∈ forked f l1, ∃ v, Ev.done c v ∈ l1 := by
  obtain ⟨s, hr, e⟩ := same_history hd hp hcap h
  exact join_after_children hd (reach_of_bounded hd hp hr).1 (e.trans hl) hj

/-- C55: a task that returns does so once and is not resumed afterwards. -/
theorem composed_once {x : CS σ V (implObj maxCap cap).D} (h : Reach body pend (implObj maxCap cap) x) {f : Nat} {v : V}
    {l1 l2 : List (Ev σ V)} (hl : x.c.log = l2 ++ .done f v :: l1) : ∀ e ∈ l2, (∀ w, e ≠ .resume f w) ∧ ∀ u, e ≠ .done f u := by
  obtain ⟨s, hr, e⟩ := same_history hd hp hcap h
  exact returns_once hd (reach_of_bounded hd hp hr).1 (e.trans hl)

/-- C55: the result of a submitted task is the one of its serial elision. -/
theorem composed_serial {x : CS σ V (implObj maxCap cap).D} (h : Reach body pend (implObj maxCap cap) x) {f w : Nat} {c : σ} {v : V}
    (hsub : Ev.submit f c w ∈ x.c.log) (hdone : Ev.done f v ∈ x.c.log) : Ser body c [] v ∧ ∀ u, Ser body c [] u → u = v := by
  obtain ⟨s, hr, e⟩ := same_history hd hp hcap h
  rw [← e] at hsub hdone
  exact result_serial hd (reach_of_bounded hd hp hr).1 hsub hdone

/-- C55: a worker in its scheduler loop has an empty deque and an empty stack. -/
theorem composed_idle {x : CS σ V (implObj maxCap cap).D} (h : Reach body pend (implObj maxCap cap) x) {w : Nat}
    (hc : x.call w = .none) (hw : x.c.pc w = .idle) : (x.dq w).bottom ≤ (x.dq w).top ∧ x.c.al (x.c.wk w) = [] := by
  obtain ⟨Q, L, P, hr, hrel⟩ := forward hd hp (to_spec hcap h)
  have hP : P w = .idle := (hrel.pc w).trans ((pcOf_none hc).trans hw)
  have h1 := idle_empty hd (reach_of_bounded hd hp hr).1 (w := w) hP
  have h2 : Q w = [] := h1.1
  refine ⟨?_, h1.2⟩
  have ho : OwnOk .none ((absS x fun _ => none).dq w) := by
    have := hrel.own w
    rwa [show (absS x fun _ => none).call w = .none from hc] at this
  have h3 := hrel.idleQ ho
  rw [h2] at h3
  have h4 : Verif.Deque.seg (x.dq w).item (x.dq w).top ((x.dq w).bottom - (x.dq w).top).toNat = [] := by
    have h5 : ((absS x fun _ => none).dq w).q = [] := by simpa using h3.symm
    exact h5
  unfold Verif.Deque.seg at h4
  simp at h4
  omega

/-- C55: no task is lost: when every worker is back in its scheduler loop, in no call, and no submission is left, every task ever
made has returned. -/
theorem composed_nothing_lost {x : CS σ V (implObj maxCap cap).D} (h : Reach body pend (implObj maxCap cap) x)
    (hc : ∀ w, x.call w = .none) (hw : ∀ w, x.c.pc w = .idle) (hb : ∀ w, x.c.inbox w = []) :
    ∀ f, f < x.c.nf → ∃ v, Ev.done f v ∈ x.c.log := by
  obtain ⟨Q, L, P, hr, hrel⟩ := forward hd hp (to_spec hcap h)
  have hP : ∀ w, P w = .idle := fun w => (hrel.pc w).trans ((pcOf_none (hc w)).trans (hw w))
  exact nothing_lost (s := put x.c Q L P) hd (reach_of_bounded hd hp hr).1 hP hb

end

end Verif.Compose
