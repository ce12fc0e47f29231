import Verif.Cactus.Inv
import Verif.Space.Props
import Verif.Stack.Space

/-!
C71: the runtime on segmented stacks.
-/
namespace Verif.Cactus
open Verif.Runtime (State Res Pc Ev Zomb Few upd)
open Verif.Exn (XS Act Choice Allowed Disc)
open Verif.Stack (Malloc Heap GoodMalloc maxSize held)
open Verif.Space (Needs Within waiting bytes frames)

variable {σ V E : Type} {body : σ → Act σ V E} {size : σ → Nat} {oom : E} {pend : σ → Nat} {dirty : σ → Prop} {may : E → Prop} {m : Malloc} {w : Nat} {ch : Choice E}

section
variable (hd : Disc body pend dirty) (hsz : ∀ d, size d ≤ maxSize) (ho : may oom)
include hd hsz ho

/-- **C71 (refinement).** Whatever happens on the segmented stacks happens in the runtime of C56 too: everything proved there holds here. -/
theorem C71_refines {s : CS σ V E} (h : Reach body size oom pend may s) : Exn.Reach body pend may s.x := (reach_good hd hsz ho h).x

/-- **C71 (safety).** No step of a worker reads, writes or frees memory that is not there, destroys a frame that is not the newest of its stack, or fails one of the assertions about
stacks; nor does submitting a task, or becoming or ceasing to be a worker. Whatever `malloc` answers. -/
theorem C71_safe {s : CS σ V E} (h : Reach body size oom pend may s) (hm : GoodMalloc m) (hf : Few s.x.c) :
    (∀ w ch, Allowed may ch → step m body size oom w ch s ≠ .ub) ∧ (∀ d w, pend d = 0 → submit m size s d w ≠ .ub) ∧ (∀ w, init m w s ≠ .ub) ∧ (∀ w, finalize w s ≠ .ub) := by
  have g := reach_good hd hsz ho h
  refine ⟨fun w ch ha e => ?_, fun d w hp e => ?_, fun w e => ?_, fun w e => ?_⟩
  · by_cases hw : s.p.fib w = 0
    · unfold step at e; rw [if_pos hw] at e; cases e
    · cases e1 : Exn.step body w ch s.x with
      | ok x' =>
        rcases step_good (m := m) hd hsz ho hm g hf ha hw e1 with ⟨p, h, e2, g'⟩ | ⟨-, -, x1, -, e2, g'⟩ | ⟨-, -, e2⟩ <;> rw [e2] at e <;> cases e
      | ub => exact Exn.no_ub hd g.x hf w ha e1
      | no => unfold step at e; rw [if_neg hw, e1] at e; cases e
  · rcases submit_good hd hsz hm g hf hp w with ⟨p, h, e1, -, g'⟩ | ⟨h, e1, g', -⟩ <;> rw [e1] at e <;> cases e
  · by_cases hw : s.p.fib w = 0
    · rcases init_good hd hm g hw with ⟨t, h, e1, _, g'⟩ | ⟨e1, _⟩ <;> rw [e1] at e <;> cases e
    · unfold init at e; rw [if_neg hw] at e; cases e
  · by_cases hc : s.p.fib w ≠ 0 ∧ s.x.c.pc w = .idle
    · obtain ⟨h, e1, g'⟩ := finalize_good hd g hc.1 hc.2
      rw [e1] at e; cases e
    · unfold finalize at e; rw [if_neg hc] at e; cases e

/-- **C71 (every step).** A worker with a stack can take exactly the steps of C56, with the same effect, unless `malloc` refuses memory. Then a fork or call throws `std::bad_alloc` and leaves
everything as it was; and a worker that has given its stack away, which needs a new one, terminates the program. -/
theorem C71_step {s : CS σ V E} (h : Reach body size oom pend may s) (hm : GoodMalloc m) (hf : Few s.x.c) (ha : Allowed may ch) (hw : s.p.fib w ≠ 0) :
    match Exn.step body w ch s.x with
    | .ok x' =>
      (∃ p h, step m body size oom w ch s = .ok ⟨x', p, h⟩) ∨
      (Refused m s.heap ∧ Spawns body s.x w ∧ ∃ x1, Exn.step body w (.fail oom false) s.x = .ok x1 ∧ step m body size oom w ch s = .ok ⟨x1, s.p, s.heap⟩) ∨
      (Refused m s.heap ∧ (∀ f, s.x.c.pc w ≠ .run f) ∧ step m body size oom w ch s = .die)
    | .no => step m body size oom w ch s = .no
    | .ub => False := by
  have g := reach_good hd hsz ho h
  split
  · rename_i x' e1
    rcases step_good (m := m) hd hsz ho hm g hf ha hw e1 with ⟨p, h, e2, -⟩ | ⟨h1, h2, x1, h3, e2, -⟩ | k
    · exact .inl ⟨p, h, e2⟩
    · exact .inr (.inl ⟨h1, h2, x1, h3, e2⟩)
    · exact .inr (.inr k)
  · rename_i e1
    unfold step; rw [if_neg hw, e1]
  · rename_i e1
    exact Exn.no_ub hd g.x hf w ha e1

/-- **C71 (submission).** Submitting a task has the effect it has in C56, unless `malloc` refuses memory; then it has none on tasks and workers. -/
theorem C71_submit {s : CS σ V E} (h : Reach body size oom pend may s) (hm : GoodMalloc m) (hf : Few s.x.c) {d : σ} (hp : pend d = 0) (w : Nat) :
    (∃ p h, submit m size s d w = .ok ⟨Exn.submit s.x d w, p, h⟩ ∧ p.fib = s.p.fib) ∨
    (∃ h, submit m size s d w = .ok ⟨s.x, s.p, h⟩ ∧ ∃ h, Refused m h) := by
  rcases submit_good hd hsz hm (reach_good hd hsz ho h) hf hp w with ⟨p, h, e1, e2, -⟩ | ⟨h, e1, -, r⟩
  · exact .inl ⟨p, h, e1, e2⟩
  · exact .inr ⟨h, e1, r⟩

/-- **C71 (comparing stacklets).** When a forked task ends whose parent has been stolen, the stacklet that the parent recorded is the one on top of the worker's stack if and only if the parent is on
that stack: what promise.hpp:88-103 deduces from comparing the pointers is right. -/
theorem C71_compare {s : CS σ V E} (h : Reach body size oom pend may s) (hf : Few s.x.c) {a b : Nat} (hp : s.x.c.pc w = .finPop a b) (hq : s.x.c.q w = []) :
    s.p.lab a = s.p.fib w ↔ s.x.c.stk a = s.x.c.wk w := by
  have g := reach_good hd hsz ho h
  have hw := g.i.on w (by rw [hp]; simp)
  have hn := Exn.no_ub hd g.x hf w (ch := .go .take) trivial
  unfold Exn.step at hn
  rw [hp] at hn
  simp only at hn
  rw [hq] at hn
  simp only at hn
  unfold Verif.Runtime.finPop at hn
  rw [hq] at hn
  simp only at hn
  split at hn
  · rename_i hc
    exact same_iff g.i hw (by rw [hp]; exact id) hc.1 hc.2
  · exact absurd rfl hn

/-- **C71 (frames).** The memory of every task that exists is aligned and lies inside one live block of the heap, behind its header. -/
theorem C71_frames {s : CS σ V E} (h : Reach body size oom pend may s) {f : Nat} (hf : Exists s f) :
    16 ∣ s.p.addr f ∧ InBlock s.heap (s.p.addr f) (size (s.x.c.init f)) := by
  obtain ⟨W, G, hh, r⟩ := (reach_good hd hsz ho h).i.j
  cases hk : W.obj (s.x.c.stk f) with
  | none => exact absurd hk ((r.dom _).2 (.inl (List.ne_nil_of_mem hf)))
  | some o =>
    have h1 : (s.p.addr f, size (s.x.c.init f)) ∈ o.live := by
      rw [r.live _ o hk]
      exact List.mem_map.2 ⟨f, hf, rfl⟩
    obtain ⟨a, -, b, k1, k2, k3, k4⟩ := (r.inv.rep _ o hk).alloc_in h1
    rw [hh] at k1
    exact ⟨k2, a, b, k1, k3, k4⟩

/-- **C71 (frames).** The memory of no two tasks that exist overlaps, whichever stacks they are on. -/
theorem C71_disjoint {s : CS σ V E} (h : Reach body size oom pend may s) {f f' : Nat} (hf : Exists s f) (hf' : Exists s f') (hne : f ≠ f') :
    Apart (s.p.addr f) (size (s.x.c.init f)) (s.p.addr f') (size (s.x.c.init f')) := by
  obtain ⟨W, G, hh, r⟩ := (reach_good hd hsz ho h).i.j
  have own : ∀ {f}, Exists s f → ∃ o, W.obj (s.x.c.stk f) = some o := fun {f} hf => by
    cases hk : W.obj (s.x.c.stk f) with
    | none => exact absurd hk ((r.dom _).2 (.inl (List.ne_nil_of_mem hf)))
    | some o => exact ⟨o, rfl⟩
  obtain ⟨o, hk⟩ := own hf
  obtain ⟨o', hk'⟩ := own hf'
  unfold Apart
  by_cases e : s.x.c.stk f = s.x.c.stk f'
  · have hp := (r.inv.rep _ o hk).pairwise r.inv.hok
    rw [r.live _ o hk, List.pairwise_map, List.pairwise_iff_getElem] at hp
    unfold Exists at hf hf'
    rw [← e] at hf'
    obtain ⟨i, hi, e1⟩ := List.getElem_of_mem hf
    obtain ⟨j, hj, e2⟩ := List.getElem_of_mem hf'
    rcases Nat.lt_or_gt_of_ne (fun e => hne (by rw [← e1, ← e2]; simp only [e]) : i ≠ j) with c | c
    · have := hp i j hi hj c
      simp only [view] at this
      rw [e1, e2] at this
      exact this
    · have := (hp j i hj hi c).symm
      simp only [view] at this
      rw [e1, e2] at this
      exact this
  · have m1 : (s.p.addr f, size (s.x.c.init f)) ∈ o.live := by
      rw [r.live _ o hk]; exact List.mem_map.2 ⟨f, hf, rfl⟩
    have m2 : (s.p.addr f', size (s.x.c.init f')) ∈ o'.live := by
      rw [r.live _ o' hk']; exact List.mem_map.2 ⟨f', hf', rfl⟩
    obtain ⟨a, ha, b, h1, _, h2, h3⟩ := (r.inv.rep _ o hk).alloc_in m1
    obtain ⟨a', ha', b', h1', _, h2', h3'⟩ := (r.inv.rep _ o' hk').alloc_in m2
    have hab : a ≠ a' := fun e' => r.inv.dis _ _ o o' e hk hk' a ha (e' ▸ ha')
    have := r.inv.hok.dis a a' b b' h1 h1' hab
    omega

/-- **C71 (no leaks).** When all tasks are over and all workers have finalized, the heap is empty. -/
theorem C71_clean {s : CS σ V E} (h : Reach body size oom pend may s) (hw : ∀ w, s.p.fib w = 0) (hb : ∀ w, s.x.c.inbox w = []) (a : Nat) : s.heap a = none := by
  have g := reach_good hd hsz ho h
  have hi : ∀ w, s.x.c.pc w = .idle := fun w => Classical.byContradiction fun hn => g.i.on w hn (hw w)
  obtain ⟨W, G, hh, r⟩ := g.i.j
  cases ha : s.heap a with
  | none => rfl
  | some b =>
    rw [← hh] at ha
    obtain ⟨k, o, h1, -⟩ := r.inv.cov a b ha
    rcases (r.dom k).1 (by rw [h1]; simp) with h2 | ⟨v, h2, -⟩
    · exact absurd (Exn.nothing_leaks hd g.x hi hb k) h2
    · cases v with
      | none => exact absurd rfl h2
      | some v => exact absurd (hw v) h2

omit hd hsz ho in
theorem owners {v : View (Option Nat)} {W : Stack.World} {G : Nat → Stack.Ghost} (r : Rel v W G) (L : List Nat) (hL : ∀ a ∈ L, W.heap a ≠ none) :
    ∃ ks : List Nat, ks.Nodup ∧ (∀ k ∈ ks, W.obj k ≠ none) ∧ ∀ a ∈ L, ∃ k ∈ ks, a ∈ Stack.foot (G k) := by
  induction L with
  | nil => exact ⟨[], List.nodup_nil, (fun _ h => by cases h), (fun _ h => by cases h)⟩
  | cons a L ih =>
    obtain ⟨ks, h1, h2, h3⟩ := ih fun b hb => hL b (List.mem_cons_of_mem _ hb)
    cases ha : W.heap a with
    | none => exact absurd ha (hL a List.mem_cons_self)
    | some b =>
      obtain ⟨k, o, h4, h5⟩ := r.inv.cov a b ha
      by_cases hk : k ∈ ks
      · refine ⟨ks, h1, h2, fun c hc => ?_⟩
        rcases List.mem_cons.1 hc with rfl | hc
        · exact ⟨k, hk, h5⟩
        · exact h3 c hc
      · refine ⟨k :: ks, List.nodup_cons.2 ⟨hk, h1⟩, fun c hc => ?_, fun c hc => ?_⟩
        · rcases List.mem_cons.1 hc with rfl | hc
          · rw [h4]; simp
          · exact h2 c hc
        · rcases List.mem_cons.1 hc with rfl | hc
          · exact ⟨k, List.mem_cons_self, h5⟩
          · obtain ⟨k', h6, h7⟩ := h3 c hc
            exact ⟨k', List.mem_cons_of_mem _ h6, h7⟩

omit hd hsz ho in
theorem held_sum {v : View (Option Nat)} {W : Stack.World} {G : Nat → Stack.Ghost} (r : Rel v W G) (ks : List Nat) (hk : ∀ k ∈ ks, W.obj k ≠ none) (L : List Nat) (hn : L.Nodup)
    (hL : ∀ a ∈ L, ∃ k ∈ ks, a ∈ Stack.foot (G k)) :
    held W.heap L ≤ 81 * ((ks.flatMap v.al).map fun f => (v.sz f + 15) / 16 * 16).sum + 36096 * ks.length := by
  classical
  induction ks generalizing L with
  | nil =>
    cases L with
    | nil => simp [held]
    | cons a L => obtain ⟨i, hi, _⟩ := hL a (by simp); simp at hi
  | cons k ks ih =>
    let p : Nat → Bool := fun a => decide (a ∈ Stack.foot (G k))
    rw [Stack.held_filter W.heap p L]
    have h1 := ih (fun k' hk' => hk k' (List.mem_cons_of_mem _ hk')) (L.filter fun a => !p a) (hn.filter _) fun a ha => by
      obtain ⟨h1, h2⟩ := List.mem_filter.1 ha
      obtain ⟨j, hj, hw⟩ := hL a h1
      rcases List.mem_cons.1 hj with e | hj
      · subst e
        simp only [p, Bool.not_eq_true', decide_eq_false_iff_not] at h2
        exact absurd hw h2
      · exact ⟨j, hj, hw⟩
    cases ho : W.obj k with
    | none => exact absurd ho (hk k List.mem_cons_self)
    | some o =>
      have r' := r.inv.rep k o ho
      have h2 := Stack.sum_sub (f := Stack.sizeAt W.heap) (hn.filter p) (F := Stack.foot (G k)) fun a ha => by
        have := (List.mem_filter.1 ha).2
        simpa only [p, decide_eq_true_eq] using this
      have h3 := r'.held_le
      rw [← Stack.liveBytes_eq, r.live k o ho] at h3
      have h4 : Stack.liveBytes ((v.al k).map fun f => (v.addr f, v.sz f)) = ((v.al k).map fun f => (v.sz f + 15) / 16 * 16).sum := by
        unfold Stack.liveBytes
        rw [List.map_map]
        rfl
      rw [h4] at h3
      simp only [List.flatMap_cons, List.map_append, List.sum_append, List.length_cons]
      unfold held at h2 h3 h1 ⊢
      omega

omit hd hsz ho in
theorem length_le_of_sub {L K : List Nat} (hn : L.Nodup) (hs : ∀ a ∈ L, a ∈ K) : L.length ≤ K.length := by
  have := Stack.sum_sub (f := fun _ => 1) hn hs
  simpa only [List.map_const', List.sum_replicate_nat, Nat.mul_one] using this

/-- **C71 (memory).** At any time, in any schedule, all memory that the stacks of `N` workers and of all tasks have together got from `malloc` is bounded: if no submitted task needs more than `S` bytes of
frames, and `D` frames, when executed serially, it is at most 81 times `S`, and 36096 bytes for `D` stacks, for each worker and each task that waits for one, and 36096 bytes more for each worker. -/
theorem C71_memory {s : CS σ V E} (h : Reach body size oom pend may s) {N S D : Nat} (hN : Within s.x.c N) (hw : ∀ w, N ≤ w → s.p.fib w = 0)
    (hS : ∀ f c w, Ev.submit f c w ∈ s.x.c.log → Needs body (fun d => (size d + 15) / 16 * 16) S c)
    (hD : ∀ f c w, Ev.submit f c w ∈ s.x.c.log → Needs body (fun _ => 1) D c) {L : List Nat} (hn : L.Nodup) (hL : ∀ a ∈ L, s.heap a ≠ none) :
    held s.heap L ≤ 81 * ((N + waiting s.x.c N) * S) + 36096 * (N + (N + waiting s.x.c N) * D) := by
  have g := reach_good hd hsz ho h
  obtain ⟨W, G, hh, r⟩ := g.i.j
  rw [← hh] at hL ⊢
  obtain ⟨ks, h1, h2, h3⟩ := owners r L hL
  have h4 := held_sum r ks h2 L hn h3
  have h5 := Space.C69_space hd g.x hN hS h1
  have h6 : ((ks.flatMap (view size s.x.c s.p).al).map fun f => ((view size s.x.c s.p).sz f + 15) / 16 * 16).sum = bytes (fun d => (size d + 15) / 16 * 16) s.x.c ks := rfl
  rw [h6] at h4
  have h7 := Space.C69_stacks hd g.x hN hD (h1.filter fun k => !(s.x.c.al k).isEmpty) (fun k hk => by
    have := (List.mem_filter.1 hk).2
    intro e; rw [e] at this; cases this)
  have h8 : (ks.filter fun k => (s.x.c.al k).isEmpty).length ≤ N := by
    have := length_le_of_sub (h1.filter fun k => (s.x.c.al k).isEmpty) (K := (List.range N).map s.x.c.wk) fun k hk => by
      obtain ⟨hk, he⟩ := List.mem_filter.1 hk
      rcases (r.dom k).1 (h2 k hk) with h9 | ⟨v, h9, -, h10⟩
      · exact absurd (List.isEmpty_iff.1 he) h9
      · cases v with
        | none => exact absurd rfl h9
        | some v =>
          refine List.mem_map.2 ⟨v, List.mem_range.2 ?_, h10⟩
          exact Classical.byContradiction fun hv => h9 (hw v (by omega))
    simpa using this
  have h11 : ks.length = (ks.filter fun k => !(s.x.c.al k).isEmpty).length + (ks.filter fun k => (s.x.c.al k).isEmpty).length := by
    clear h1 h2 h3 h4 h5 h6 h7 h8
    induction ks with
    | nil => rfl
    | cons k ks ih => cases hk : (s.x.c.al k).isEmpty <;> simp [hk] <;> omega
  refine Nat.le_trans h4 (Nat.add_le_add (Nat.mul_le_mul_left _ h5) (Nat.mul_le_mul_left _ ?_))
  omega

end

end Verif.Cactus
