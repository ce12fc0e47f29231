import Verif.Cactus.View
import Verif.Exn.Props

/-!
Every step of the runtime on lists of frames is one on the segmented stacks.
-/
namespace Verif.Cactus
open Verif.Runtime (State Res Fr Pc Loc Link Zomb upd upd_apply upd_same upd_ne)
open Verif.Exn (XS Act Choice)
open Verif.Stack (Malloc Heap GoodMalloc maxSize)

variable {σ V E : Type}

/-- What the lists say about the stacks. -/
def view (size : σ → Nat) (c : State σ (Except E V)) (p : Ptrs) : View (Option Nat) where
  al := c.al
  wk := fun i => i.elim 0 c.wk
  fib := fun i => i.elim 0 p.fib
  Z := fun i => i.elim False fun w => Zomb (c.pc w)
  lab := p.lab
  addr := p.addr
  sz := fun f => size (c.init f)

structure CInv (size : σ → Nat) (c : State σ (Except E V)) (p : Ptrs) (h : Heap) : Prop where
  j : J (view size c p) h
  on : ∀ w, c.pc w ≠ .idle → p.fib w ≠ 0

/-- What Verif.Runtime.Inv knows. -/
structure Ab (c : State σ (Except E V)) : Prop where
  inj : ∀ w w', ¬ Zomb (c.pc w) → ¬ Zomb (c.pc w') → c.wk w = c.wk w' → w = w'
  fr1 : ∀ n, c.ns ≤ n → c.al (2 * n) = []
  fr2 : ∀ n, c.ns ≤ n → ∀ w, c.wk w ≠ 2 * n
  dO : ∀ w p k, c.pc w = .finDec p k true → c.wk w = c.stk p ∧ (c.al (c.stk p)).head? = some p
  lt : ∀ k f, f ∈ c.al k → f < c.nf
  id : ∀ w, c.pc w = .idle → c.al (c.wk w) = []
  run : ∀ w f, c.pc w = .run f → f ∈ c.al (c.stk f)

theorem ab_of {body : σ → Act σ V E} {pend : σ → Nat} {dirty : σ → Prop} {may : E → Prop} (hd : Exn.Disc body pend dirty) {s : XS σ V E}
    (h : Exn.Reach body pend may s) : Ab s.c := by
  obtain ⟨es, r, hr, hrel⟩ := Exn.reach_rel hd h fun _ => .nil
  have hi := Verif.Runtime.reach_inv (Exn.disc_tgt hd) hr
  have hk := hi.stk
  have b := hrel.base
  refine ⟨?_, ?_, ?_, ?_, ?_, ?_, ?_⟩
  · have := hk.inj; rw [b.pc, b.wk] at this; exact this
  · have := hk.fr1; rw [b.ns, b.al] at this; exact this
  · have := hk.fr2; rw [b.ns, b.wk] at this; exact this
  · have := hk.dO; rw [b.pc, b.wk, b.stk, b.al] at this; exact this
  · intro k f hf
    have h1 := (hk.mem f k).1 (by rw [b.al]; exact hf)
    exact Exn.alive_lt hi hrel (by rw [← b.loc]; exact h1.1)
  · have := hk.id; rw [b.pc, b.wk, b.al] at this; exact this
  · intro w f hf
    rw [← b.pc] at hf
    have := (hi.loc.run w f).2 (.inl hf)
    rw [← b.al, ← b.stk]
    exact (hk.mem f _).2 ⟨by rw [this]; trivial, rfl⟩

theorem upd_eq (f : Nat → α) (i : Nat) (v : α) : upd f i v = upd' f i v := rfl

theorem elim_upd {α : Type} (f : Nat → α) (a : α) (w : Nat) (v : α) :
    (fun i : Option Nat => i.elim a (upd f w v)) = upd' (fun i : Option Nat => i.elim a f) (some w) v := by
  funext i
  cases i with
  | none => rfl
  | some i => simp only [Option.elim, upd', upd, Option.some.injEq]

/-- The stacks are as before. -/
structure Kept (c c' : State σ (Except E V)) (w : Nat) (q : Pc) : Prop where
  al : c'.al = c.al
  wk : c'.wk = c.wk
  init : c'.init = c.init
  pc : c'.pc = upd c.pc w q

variable {size : σ → Nat} {c c' : State σ (Except E V)} {p : Ptrs} {h : Heap} {w : Nat} {q : Pc}

theorem elim_zomb (f : Nat → Pc) (w : Nat) (q : Pc) :
    (fun i : Option Nat => i.elim False fun w' => Zomb (upd f w q w')) = upd' (fun i : Option Nat => i.elim False fun w => Zomb (f w)) (some w) (Zomb q) := by
  funext i
  cases i with
  | none => rfl
  | some i =>
    simp only [Option.elim, upd', upd, Option.some.injEq]
    split <;> rfl

theorem upd'_self {α : Type} (f : Option Nat → α) (w : Nat) (v : α) (h : f (some w) = v) : upd' f (some w) v = f := by
  funext i
  simp only [upd']
  split
  · rename_i e; rw [e, h]
  · rfl

theorem on_upd (h : CInv size c p h0) (hw : p.fib w ≠ 0) {w' : Nat} (hn : upd c.pc w q w' ≠ .idle) : p.fib w' ≠ 0 := by
  by_cases e : w' = w
  · subst e; exact hw
  · rw [upd_apply, if_neg e] at hn; exact h.on w' hn

theorem CInv.keep (i : CInv size c p h) (hw : p.fib w ≠ 0) (hk : Kept c c' w q) (hz : Zomb q ↔ Zomb (c.pc w)) : CInv size c' p h := by
  obtain ⟨h1, h2, h3, h4⟩ := hk
  refine ⟨?_, fun w' hn => on_upd i hw (q := q) (by rw [h4] at hn; exact hn)⟩
  have : view size c' p = view size c p := by
    ext1 <;> simp only [view, h1, h2, h3, h4]
    rw [elim_zomb]
    exact upd'_self _ _ _ (propext hz.symm)
  rw [this]; exact i.j

/-- The stack is given away. -/
theorem CInv.give (i : CInv size c p h) (hw : p.fib w ≠ 0) (hk : Kept c c' w q) (hz : Zomb q) (hne : c.al (c.wk w) ≠ []) : CInv size c' p h := by
  obtain ⟨h1, h2, h3, h4⟩ := hk
  refine ⟨?_, fun w' hn => on_upd i hw (q := q) (by rw [h4] at hn; exact hn)⟩
  have := i.j.give (w := some w) hne
  have e : view size c' p = { view size c p with Z := fun w' => w' = some w ∨ (view size c p).Z w' } := by
    ext1 <;> simp only [view, h1, h2, h3, h4]
    rw [elim_zomb]
    funext k
    simp only [upd']
    split
    · rename_i e; simp [e, hz]
    · rename_i e; simp [e]
  rw [e]; exact this

theorem lone (ab : Ab c) (hz : ¬ Zomb (c.pc w)) : (view size c p).Lone (some w) (c.wk w) := by
  rintro (_ | w') hne h0 hz'
  · exact absurd rfl h0
  · intro e
    exact hne (by rw [ab.inj w' w hz' hz e])

/-- The worker takes the stack `k`. -/
theorem CInv.take (i : CInv size c p h) (ab : Ab c) (hw : p.fib w ≠ 0) (hz : ¬ Zomb (c.pc w)) (he : c.al (c.wk w) = []) {k f : Nat}
    (hk : (c.al k).head? = some f) (h1 : c'.al = c.al) (h2 : c'.wk = upd c.wk w k) (h3 : c'.init = c.init) (h4 : c'.pc = upd c.pc w q)
    (hq : ¬ Zomb q) : ∃ h', doTake w f p h = .ok (p.setFib w (p.lab f)) h' ∧ CInv size c' (p.setFib w (p.lab f)) h' := by
  obtain ⟨h', e, hn, j⟩ := i.j.take (w := some w) hw hz (lone ab hz) he hk
  refine ⟨h', ?_, ?_, fun w' hn' => ?_⟩
  · unfold doTake
    have e1 : noAlloc (p.fib w) h = .ok () h := i.j.noAlloc (w := some w) hw hz he
    have e : takeStack (p.fib w) (p.lab f) h = .ok (p.lab f) h' := e
    rw [Stack.bind_ok e1, Stack.bind_ok e]
    rfl
  · have : view size c' (p.setFib w (p.lab f)) = { view size c p with wk := upd' (view size c p).wk (some w) k, fib := upd' (view size c p).fib (some w) (p.lab f) } := by
      ext1 <;> simp only [view, Ptrs.setFib, h1, h2, h3, h4, elim_upd]
      rw [elim_zomb]
      exact upd'_self _ _ _ (propext ⟨fun h => absurd h hz, fun h => absurd h hq⟩)
    rw [this]; exact j
  · simp only [Ptrs.setFib, upd_apply]
    split
    · exact hn
    · rename_i e; rw [h4, upd_apply, if_neg e] at hn'; exact i.on w' hn'

/-- The worker gets a new stack, `2 * c.ns`. -/
theorem CInv.renew {m : Malloc} (hm : GoodMalloc m) (i : CInv size c p h) (ab : Ab c) (hz : Zomb (c.pc w)) (h1 : c'.al = c.al)
    (h2 : c'.wk = upd c.wk w (2 * c.ns)) (h3 : c'.init = c.init) (h4 : c'.pc = upd c.pc w q) (hq : ¬ Zomb q) :
    (∃ p' h', doGive m w true p h = .ok p' h' ∧ CInv size c' p' h') ∨ (doGive m w true p h = .badAlloc h ∧ ∃ r, m h r = none) := by
  have hw : p.fib w ≠ 0 := i.on w fun e => by rw [e] at hz; exact hz
  have hl : (view size c p).Lone (some w) (2 * c.ns) := by
    rintro (_ | w') hne h0 hz'
    · exact absurd rfl h0
    · exact ab.fr2 _ (Nat.le_refl _) w'
  rcases i.j.renew hm (w := some w) hw hz (ab.fr1 _ (Nat.le_refl _)) hl with ⟨t, h', e, hn, j⟩ | ⟨e, r⟩
  · left
    have hv : view size c' (p.setFib w t) = { view size c p with wk := upd' (view size c p).wk (some w) (2 * c.ns), fib := upd' (view size c p).fib (some w) t, Z := fun w' => w' ≠ some w ∧ (view size c p).Z w' } := by
      ext1 <;> simp only [view, Ptrs.setFib, h1, h2, h3, h4, elim_upd]
      rw [elim_zomb]
      funext k
      simp only [upd']
      split
      · rename_i e; simp [e, hq]
      · rename_i e; simp [e]
    have hc : CInv size c' (p.setFib w t) h' := by
      refine ⟨by rw [hv]; exact j, fun w' hn' => ?_⟩
      simp only [Ptrs.setFib, upd_apply]
      split
      · exact hn
      · rename_i e; rw [h4, upd_apply, if_neg e] at hn'; exact i.on w' hn'
    refine ⟨_, h', ?_, hc⟩
    have hna := hc.j.noAlloc (w := some w) (by simp [view, Ptrs.setFib, upd_same, hn]) (by simp [view, h4, upd_same, hq])
      (by simp only [view, h1, h2, Option.elim, upd_same]; exact ab.fr1 _ (Nat.le_refl _))
    simp only [view, Ptrs.setFib, Option.elim, upd_same] at hna
    unfold doGive
    have e : Cactus.renew m (p.fib w) h = .ok t h' := e
    rw [if_pos rfl, Stack.bind_ok e, Stack.bind_ok hna]
    rfl
  · right
    refine ⟨?_, r⟩
    unfold doGive
    rw [if_pos rfl, Stack.bind_apply]
    have e : Cactus.renew m (p.fib w) h = .badAlloc h := e
    rw [e]

/-- A frame is made by worker `w`. -/
theorem CInv.push {m : Malloc} (hm : GoodMalloc m) (i : CInv size c p h) (ab : Ab c) (hw : p.fib w ≠ 0) (hz : ¬ Zomb (c.pc w)) {d : σ}
    (hs : size d ≤ maxSize) (h1 : c'.al = upd c.al (c.wk w) (c.nf :: c.al (c.wk w))) (h2 : c'.wk = c.wk) (h3 : c'.init = upd c.init c.nf d)
    (h4 : c'.pc = upd c.pc w q) (hq : ¬ Zomb q) :
    (∃ t a h', Stack.allocate m (p.fib w) (size d) h = .ok (t, a) h' ∧ CInv size c' (p.push w c.nf t a) h') ∨
    (Stack.allocate m (p.fib w) (size d) h = .badAlloc h ∧ ∃ r, m h r = none) := by
  rcases i.j.push hm (w := some w) hw hz (lone ab hz) (f := c.nf) (n := size d) (fun k hf => Nat.lt_irrefl _ (ab.lt k _ hf)) hs with ⟨t, a, h', e, hn, j⟩ | e
  · left
    refine ⟨t, a, h', e, ?_, ?_⟩
    · have : view size c' (p.push w c.nf t a) = { view size c p with
          al := upd' (view size c p).al ((view size c p).wk (some w)) (c.nf :: (view size c p).al ((view size c p).wk (some w)))
          fib := upd' (view size c p).fib (some w) t, lab := upd' (view size c p).lab c.nf t, addr := upd' (view size c p).addr c.nf a, sz := upd' (view size c p).sz c.nf (size d) } := by
        ext1 <;> simp only [view, Ptrs.push, h1, h2, h3, h4, elim_upd] <;> try rfl
        · rw [elim_zomb]
          exact upd'_self _ _ _ (propext ⟨fun h => absurd h hz, fun h => absurd h hq⟩)
        · funext f
          simp only [upd', upd]
          split <;> rfl
      rw [this]; exact j
    · intro w' hn'
      simp only [Ptrs.push, upd_apply]
      split
      · exact hn
      · rename_i e; rw [h4, upd_apply, if_neg e] at hn'; exact i.on w' hn'
  · exact .inr e

/-- A frame on top of the worker's stack is destroyed. -/
theorem CInv.pop (i : CInv size c p h) (ab : Ab c) (hw : p.fib w ≠ 0) (hz : ¬ Zomb (c.pc w)) {f : Nat} {L : List Nat}
    (hf : c.al (c.wk w) = f :: L) (h1 : c'.al = upd c.al (c.wk w) L) (h2 : c'.wk = c.wk) (h3 : c'.init = c.init) (h4 : c'.pc = upd c.pc w q)
    (hq : ¬ Zomb q) :
    ∃ t h', Cactus.pop (p.fib w) (p.lab f) (p.addr f) h = .ok t h' ∧ t ≠ 0 ∧ CInv size c' (p.setFib w t) h' := by
  obtain ⟨t, h', e, hn, j⟩ := i.j.pop (w := some w) hw hz (lone ab hz) hf
  refine ⟨t, h', e, hn, ?_, ?_⟩
  · have : view size c' (p.setFib w t) = { view size c p with al := upd' (view size c p).al ((view size c p).wk (some w)) L, fib := upd' (view size c p).fib (some w) t } := by
      ext1 <;> simp only [view, Ptrs.setFib, h1, h2, h3, h4, elim_upd] <;> try rfl
      rw [elim_zomb]
      exact upd'_self _ _ _ (propext ⟨fun h => absurd h hz, fun h => absurd h hq⟩)
    rw [this]; exact j
  · intro w' hn'
    simp only [Ptrs.setFib, upd_apply]
    split
    · exact hn
    · rename_i e; rw [h4, upd_apply, if_neg e] at hn'; exact i.on w' hn'

theorem CInv.empty (i : CInv size c p h) (hw : p.fib w ≠ 0) (hz : ¬ Zomb (c.pc w)) (he : c.al (c.wk w) = []) :
    noAlloc (p.fib w) h = .ok () h := i.j.noAlloc (w := some w) hw hz he

theorem CInv.top (i : CInv size c p h) (hw : p.fib w ≠ 0) (hz : ¬ Zomb (c.pc w)) {f : Nat} (hf : (c.al (c.wk w)).head? = some f) :
    p.lab f = p.fib w := i.j.top (w := some w) hw hz hf

theorem CInv.apart (i : CInv size c p h) (hw : p.fib w ≠ 0) (hz : ¬ Zomb (c.pc w)) {f k : Nat} (hf : f ∈ c.al k) (hk : k ≠ c.wk w) :
    p.lab f ≠ p.fib w := i.j.apart (w := some w) hw hz hf hk

theorem check_ok {b : Bool} (hb : b = true) : check b p h = .ok p h := by
  unfold check
  rw [Stack.bind_ok (Stack.assert_true hb)]
  rfl

theorem doEmpty_ok (e : noAlloc (p.fib w) h = .ok () h) : doEmpty w p h = .ok p h := by
  unfold doEmpty
  rw [Stack.bind_ok e]
  rfl

theorem doGive_ok {m : Malloc} (e : noAlloc (p.fib w) h = .ok () h) : doGive m w false p h = .ok p h := by
  unfold doGive
  rw [if_neg (by simp), Stack.bind_ok e]
  rfl

theorem isTop_iff {c : State σ (Except E V)} {f : Nat} : c.isTop f = true ↔ (c.al (c.stk f)).head? = some f := by simp [State.isTop]
theorem live_iff {c : State σ (Except E V)} {f : Nat} : c.live f = true ↔ f ∈ c.al (c.stk f) := by simp [State.live]
theorem wkEmpty_iff {c : State σ (Except E V)} {w : Nat} : c.wkEmpty w = true ↔ c.al (c.wk w) = [] := by simp [State.wkEmpty]

theorem doTakeTop_ok {f : Nat} {h' : Heap} (e : doTake w f p h = .ok (p.setFib w (p.lab f)) h') :
    doTakeTop w f p h = .ok (p.setFib w (p.lab f)) h' := by
  unfold doTakeTop
  rw [Stack.bind_ok e, Stack.bind_ok (Stack.assert_true (by simp [Ptrs.setFib, upd_same]))]
  rfl

/-! ### What the steps of Verif.Exn.Model do to the lists -/

section
variable {body : σ → Act σ V E} {s s' : XS σ V E} {f : Nat}

theorem passJoin_kept (e : Exn.passJoin body s w f = .ok s') :
    Kept s.c s'.c w (.run f) ∧ s.c.wk w = s.c.stk f ∧ (s.c.al (s.c.stk f)).head? = some f := by
  unfold Exn.passJoin at e
  simp only at e
  split at e
  · rename_i hc
    refine ⟨?_, hc.2.2.1, isTop_iff.1 hc.2.2.2⟩
    split at e <;> cases e <;> exact ⟨rfl, rfl, rfl, rfl⟩
  · cases e

theorem wake_kept {r : Res (State σ (Except E V))} {q : Pc} (e : Exn.Res.bind (Exn.plain s r) (Exn.wake body · f) = .ok s') :
    ∃ c1, r = .ok c1 ∧ ∀ c, Kept c c1 w q → Kept c s'.c w q := by
  cases r with
  | ok c1 =>
    refine ⟨c1, rfl, fun c hk => ?_⟩
    simp only [Exn.plain, Exn.Res.bind, Exn.wake] at e
    split at e
    · cases e
      exact ⟨hk.al, hk.wk, hk.init, hk.pc⟩
    · cases e
  | ub => cases e
  | no => cases e

theorem plain_kept {r : Res (State σ (Except E V))} (e : Exn.plain s r = .ok s') : ∃ c1, r = .ok c1 ∧ s'.c = c1 := by
  cases r with
  | ok c1 => cases e; exact ⟨c1, rfl, rfl⟩
  | ub => cases e
  | no => cases e
end

end Verif.Cactus
