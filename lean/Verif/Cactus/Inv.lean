import Verif.Cactus.Step
import Verif.Cactus.Spec

/-!
What holds in every state.
-/
namespace Verif.Cactus
open Verif.Runtime (State Res Fr Pc Loc Link Zomb Few upd upd_apply upd_same upd_ne)
open Verif.Exn (XS Act Choice Allowed Disc)
open Verif.Stack (Malloc Heap GoodMalloc maxSize)

theorem orElse_ok {α : Type} {x y : Stack.M α} {h h' : Heap} {a : α} (e : x h = .ok a h') : orElse x y h = .ok a h' := by unfold orElse; rw [e]
theorem orElse_bad {α : Type} {x y : Stack.M α} {h h' : Heap} (e : x h = .badAlloc h') : orElse x y h = y h' := by unfold orElse; rw [e]
theorem bind_bad {α β : Type} {x : Stack.M α} {f : α → Stack.M β} {h h' : Heap} (e : x h = .badAlloc h') : (x >>= f) h = .badAlloc h' := by
  rw [Stack.bind_apply, e]

namespace J
variable {ι : Type} [DecidableEq ι] {v : View ι} {h : Heap} {m : Malloc}

theorem congr {v' : View ι} (j : J v h) (h1 : v'.al = v.al) (h2 : v'.wk = v.wk) (h3 : v'.fib = v.fib) (h4 : v'.Z = v.Z)
    (h5 : ∀ k, ∀ f ∈ v.al k, v'.lab f = v.lab f ∧ v'.addr f = v.addr f ∧ v'.sz f = v.sz f) : J v' h := by
  obtain ⟨W, G, hh, r⟩ := j
  refine ⟨W, G, hh, r.inv, fun i => ?_, r.own, fun i o ho => ?_, fun i o ho => ?_, fun i o g1 g2 g3 => ?_⟩
  · rw [r.dom i, View.Held, View.Held, h1, h2, h3, h4]
  · rw [r.live i o ho, h1]
    exact List.map_congr_left fun f hf => by rw [(h5 i f hf).2.1, (h5 i f hf).2.2]
  · rw [r.tag i o ho, h1]
    exact List.map_congr_left fun f hf => by rw [(h5 i f hf).1]
  · rw [h3] at g1 ⊢
    rw [h4] at g2
    rw [h2] at g3
    exact r.fib i o g1 g2 g3

theorem schedule (hm : GoodMalloc m) (j : J v h) {w : ι} (h0 : v.fib w = 0) (hz : ¬ v.Z w) {k k' : Nat} (hkk : k' ≠ k) (hk : v.al k = []) (hk' : v.al k' = [])
    (hl : v.Lone w k) (hl' : v.Lone w k') {f n : Nat} (hf : ∀ k, f ∉ v.al k) (hs : n ≤ maxSize) :
    (∃ t a h', Cactus.schedule m n h = .ok (some (t, a)) h' ∧
      J { v with al := upd' v.al k [f], lab := upd' v.lab f t, addr := upd' v.addr f a, sz := upd' v.sz f n } h') ∨
    (∃ h', Cactus.schedule m n h = .ok none h' ∧ J v h' ∧ ∃ h0 r, m h0 r = none) := by
  unfold Cactus.schedule
  rcases j.fresh hm (.inl h0) hk hl with ⟨t0, h1, e1, n1, j1⟩ | ⟨e1, r1⟩
  · rcases j1.push hm (w := w) (f := f) (n := n) (by simp [upd', n1]) (by simp) (by
        intro w' hw' g1 g2
        simp only [upd', if_neg hw', if_pos] at g1 g2 ⊢
        exact hl w' hw' g1 fun z => g2 ⟨hw', z⟩) hf hs with ⟨t, a, h2, e2, n2, j2⟩ | ⟨e2, r2⟩
    · simp only [upd', if_pos] at e2
      have j3 := j2.give (w := w) (by simp [upd'])
      rcases j3.renew hm (w := w) (k := k') (by simp [upd', n2]) (.inl rfl) (by simp [upd', hkk, hk']) (by
        intro w' hw' g1 g2
        simp only [upd', if_neg hw'] at g1 g2 ⊢
        exact hl' w' hw' g1 fun z => g2 (.inr ⟨hw', z⟩)) with ⟨t', h3, e3, n3, j4⟩ | ⟨e3, r3⟩
      · simp only [upd', if_pos] at e3
        obtain ⟨h4, e4, j5⟩ := j4.drop (w := w) (by simp [upd', n3]) (by simp) (by
          intro w' hw' g1 g2
          simp only [upd', if_neg hw', if_pos] at g1 g2 ⊢
          exact hl' w' hw' g1 fun z => g2 ⟨hw', .inr ⟨hw', z⟩⟩) (by simp [upd', hkk, hk'])
        simp only [upd', if_pos] at e4
        left
        refine ⟨t, a, h4, ?_, ?_⟩
        · exact orElse_ok (by rw [Stack.bind_ok e1]; exact orElse_ok (by rw [Stack.bind_ok e2]; exact orElse_ok (by rw [Stack.bind_ok e3, Stack.bind_ok e4]; rfl)))
        · have j6 := j5.rewk (w := w) (by simp [upd']) (v.wk w)
          refine cast (congrFun (congrArg J (View.ext ?_ ?_ ?_ ?_ ?_ ?_ ?_)) h4) j6 <;> funext i <;> simp only [upd', if_true]
          · split
            · simp [hk]
            · rfl
          · split
            · rename_i e; rw [e]
            · rfl
          · split
            · rename_i e; rw [e, h0]
            · rfl
          · by_cases e : i = w
            · simp [e, hz]
            · simp [e]
      · simp only [upd', if_pos] at e3
        obtain ⟨t3, h3, e4, n4, j4⟩ := j2.pop (w := w) (f := f) (L := []) (by simp [upd', n2]) (by simp) (by
          intro w' hw' g1 g2
          simp only [upd', if_neg hw', if_pos] at g1 g2 ⊢
          exact hl w' hw' g1 fun z => g2 ⟨hw', z⟩) (by simp [upd', hk])
        simp only [upd', if_pos] at e4
        obtain ⟨h4, e5, j5⟩ := j4.drop (w := w) (by simp [upd', n4]) (by simp) (by
          intro w' hw' g1 g2
          simp only [upd', if_neg hw', if_pos] at g1 g2 ⊢
          exact hl w' hw' g1 fun z => g2 ⟨hw', z⟩) (by simp [upd'])
        simp only [upd', if_pos] at e5
        right
        refine ⟨h4, ?_, ?_, _, r3⟩
        · refine orElse_ok ?_
          rw [Stack.bind_ok e1]
          refine orElse_ok ?_
          rw [Stack.bind_ok e2, orElse_bad (bind_bad e3), Stack.bind_ok e4, Stack.bind_ok e5]
          rfl
        · have j6 := j5.rewk (w := w) (by simp [upd']) (v.wk w)
          refine j6.congr ?_ ?_ ?_ ?_ ?_
          · funext i
            simp only [upd', if_true]
            split
            · rename_i e; rw [e, hk]
            · rfl
          · funext i
            simp only [upd']
            split
            · rename_i e; rw [e]
            · rfl
          · funext i
            simp only [upd']
            split
            · rename_i e; rw [e, h0]
            · rfl
          · funext i
            by_cases e : i = w
            · simp [e, hz]
            · simp [e]
          · intro i g hg
            have : g ≠ f := by
              rintro rfl
              simp only [upd', if_true] at hg
              split at hg
              · cases hg
              · exact hf i hg
            simp only [upd', if_neg this, and_self]
    · simp only [upd', if_pos] at e2
      obtain ⟨h4, e5, j5⟩ := j1.drop (w := w) (by simp [upd', n1]) (by simp) (by
          intro w' hw' g1 g2
          simp only [upd', if_neg hw', if_pos] at g1 g2 ⊢
          exact hl w' hw' g1 fun z => g2 ⟨hw', z⟩) (by simp [upd', hk])
      simp only [upd', if_pos] at e5
      right
      refine ⟨h4, ?_, ?_, _, r2⟩
      · refine orElse_ok ?_
        rw [Stack.bind_ok e1, orElse_bad (bind_bad e2), Stack.bind_ok e5]
        rfl
      · have j6 := j5.rewk (w := w) (by simp [upd']) (v.wk w)
        refine j6.congr ?_ ?_ ?_ ?_ ?_
        · rfl
        · funext i
          simp only [upd']
          split
          · rename_i e; rw [e]
          · rfl
        · funext i
          simp only [upd']
          split
          · rename_i e; rw [e, h0]
          · rfl
        · funext i
          by_cases e : i = w
          · simp [e, hz]
          · simp [e]
        · exact fun i g hg => ⟨rfl, rfl, rfl⟩
  · right
    refine ⟨h, ?_, j, _, r1⟩
    rw [orElse_bad (bind_bad e1)]
    rfl

end J

variable {σ V E : Type} {body : σ → Act σ V E} {size : σ → Nat} {oom : E} {pend : σ → Nat} {dirty : σ → Prop} {may : E → Prop} {m : Malloc} {w : Nat} {ch : Choice E}

theorem fine_all {x x' : XS σ V E} {p : Ptrs} {h : Heap} (hm : GoodMalloc m) (hsz : ∀ d, size d ≤ maxSize) (ab : Ab x.c) (i : CInv size x.c p h) (hw : p.fib w ≠ 0)
    (e : Exn.step body w ch x = .ok x') : Fine size m body w x x' h (ops m body size w ch x.c p h) := by
  cases hp : x.c.pc w with
  | idle => exact fine_idle ab i hw hp e
  | run f => exact fine_run hm hsz ab i hw hp e
  | joinLoad f => exact fine_plain ab i hw (.inl ⟨_, hp⟩) e
  | joinSub f => exact fine_plain ab i hw (.inr (.inl ⟨_, hp⟩)) e
  | joinTake f => exact fine_take ab i hw (.inl ⟨_, hp⟩) e
  | finPop a b => exact fine_plain ab i hw (.inr (.inr (.inl ⟨_, _, hp⟩))) e
  | finDec a b d => exact fine_plain ab i hw (.inr (.inr (.inr (.inl ⟨_, _, _, hp⟩)))) e
  | finWin a b => exact fine_take ab i hw (.inr ⟨_, _, hp⟩) e
  | finLose b => exact fine_give hm ab i hw (.inl ⟨_, hp⟩) e
  | switchRel b => exact fine_give hm ab i hw (.inr (.inl ⟨_, hp⟩)) e
  | selfSteal => exact fine_give hm ab i hw (.inr (.inr hp)) e
  | stole f => exact fine_plain ab i hw (.inr (.inr (.inr (.inr ⟨_, hp⟩)))) e

/-- Comparing the stacklets tells whether the stacks are the same. -/
theorem same_iff {x : XS σ V E} {p : Ptrs} {h : Heap} (i : CInv size x.c p h) (hw : p.fib w ≠ 0) (hz : ¬ Zomb (x.c.pc w)) {f : Nat}
    (hl : x.c.live f = true) (ht : x.c.stk f = x.c.wk w → x.c.isTop f = true) : p.lab f = p.fib w ↔ x.c.stk f = x.c.wk w := by
  constructor
  · intro e
    by_cases hk : x.c.stk f = x.c.wk w
    · exact hk
    · exact absurd e (i.apart hw hz (live_iff.1 hl) hk)
  · intro e
    have := isTop_iff.1 (ht e)
    rw [e] at this
    exact i.top hw hz this

theorem same_finPop {s : CS σ V E} {x' : XS σ V E} (i : CInv size s.x.c s.p s.heap) (hw : s.p.fib w ≠ 0) {a b : Nat} (hp : s.x.c.pc w = .finPop a b) (hq : s.x.c.q w = [])
    (e : Exn.step body w ch s.x = .ok x') :
    decide (s.p.lab a = s.p.fib w) = decide (s.x.c.stk a = s.x.c.wk w) ∧
      x' = { s.x with c := { s.x.c with pc := upd s.x.c.pc w (.finDec a b (decide (s.x.c.stk a = s.x.c.wk w))) } } := by
  unfold Exn.step at e
  rw [hp] at e
  simp only at e
  rw [hq] at e
  simp only at e
  unfold Verif.Runtime.finPop at e
  rw [hq] at e
  simp only at e
  split at e
  · rename_i hc
    refine ⟨?_, (Res.ok.inj e).symm⟩
    exact decide_eq_decide.2 (same_iff i hw (by rw [hp]; exact id) hc.1 hc.2)
  · cases e

theorem decideSame_eq {s : CS σ V E} {x' : XS σ V E} (i : CInv size s.x.c s.p s.heap) (hw : s.p.fib w ≠ 0) (e : Exn.step body w ch s.x = .ok x') :
    decideSame s w x' = x' := by
  unfold decideSame
  split
  · rename_i hp hq
    obtain ⟨h1, rfl⟩ := same_finPop i hw hp hq e
    rw [h1, upd_upd]
  · rfl

/-- Every state. -/
structure Good (body : σ → Act σ V E) (size : σ → Nat) (pend : σ → Nat) (may : E → Prop) (s : CS σ V E) : Prop where
  x : Exn.Reach body pend may s.x
  i : CInv size s.x.c s.p s.heap

theorem Spawns.fail {x : XS σ V E} (h : Spawns body x w) (ab : Ab x.c) {p : Ptrs} {hp : Heap} (i : CInv size x.c p hp) (hw : p.fib w ≠ 0) (e : E) :
    ∃ x', Exn.step body w (.fail e false) x = .ok x' ∧ CInv size x'.c p hp := by
  obtain ⟨f, hf, hs⟩ := h
  unfold Exn.step
  rw [hf]
  simp only
  unfold Exn.run
  rcases hs with ⟨d, k, y, hb⟩ | ⟨d, k, y, hb⟩ <;> simp only [hb, Exn.failed_eq] <;> exact ⟨_, rfl, keep_goOn ab i hw hf⟩

theorem step_good (hd : Disc body pend dirty) (hsz : ∀ d, size d ≤ maxSize) (ho : may oom) (hm : GoodMalloc m) {s : CS σ V E} (g : Good body size pend may s) (hf : Few s.x.c)
    (ha : Allowed may ch) (hw : s.p.fib w ≠ 0) {x' : XS σ V E} (e : Exn.step body w ch s.x = .ok x') :
    (∃ p h, step m body size oom w ch s = .ok ⟨x', p, h⟩ ∧ Good body size pend may ⟨x', p, h⟩) ∨
    (Refused m s.heap ∧ Spawns body s.x w ∧ ∃ x1, Exn.step body w (.fail oom false) s.x = .ok x1 ∧ step m body size oom w ch s = .ok ⟨x1, s.p, s.heap⟩ ∧
      Good body size pend may ⟨x1, s.p, s.heap⟩) ∨
    (Refused m s.heap ∧ (∀ f, s.x.c.pc w ≠ .run f) ∧ step m body size oom w ch s = .die) := by
  have ab := ab_of hd g.x
  rcases fine_all hm hsz ab g.i hw e with ⟨p', h', e1, i'⟩ | ⟨e1, r, hk⟩
  · left
    refine ⟨p', h', ?_, .step g.x hf ha e, i'⟩
    unfold step
    rw [if_neg hw, e]
    simp only [e1, decideSame_eq g.i hw e]
  · right
    rcases hk with hk | hk
    · right
      refine ⟨r, hk, ?_⟩
      unfold step
      rw [if_neg hw, e]
      simp only [e1]
    · left
      obtain ⟨x1, e2, i1⟩ := hk.fail ab g.i hw oom
      refine ⟨r, hk, x1, e2, ?_, .step (ch := .fail oom false) g.x hf ho e2, i1⟩
      obtain ⟨f, hp, -⟩ := hk
      unfold step
      rw [if_neg hw, e]
      simp only [e1, hp, after, e2]
      rw [decideSame_eq g.i hw e2]

theorem init_good (hd : Disc body pend dirty) (hm : GoodMalloc m) {s : CS σ V E} (g : Good body size pend may s) (hw : s.p.fib w = 0) :
    (∃ t h, init m w s = .ok ⟨s.x, s.p.setFib w t, h⟩ ∧ t ≠ 0 ∧ Good body size pend may ⟨s.x, s.p.setFib w t, h⟩) ∨
    (init m w s = .ok s ∧ Refused m s.heap) := by
  have ab := ab_of hd g.x
  have hi : s.x.c.pc w = .idle := Classical.byContradiction fun hn => g.i.on w hn hw
  have hz : ¬ Zomb (s.x.c.pc w) := by rw [hi]; exact id
  unfold init
  rw [if_pos hw]
  rcases g.i.j.fresh hm (w := some w) (k := s.x.c.wk w) (.inl hw) (ab.id w hi) (lone ab hz) with ⟨t, h', e, n, j⟩ | ⟨e, r⟩
  · left
    refine ⟨t, h', by rw [e], n, g.x, ?_, fun w' hw' => ?_⟩
    · refine cast (congrFun (congrArg J (View.ext ?_ ?_ ?_ ?_ ?_ ?_ ?_)) h') j <;> simp only [view, Ptrs.setFib, elim_upd]
      · exact upd'_self _ _ _ rfl
      · funext k
        by_cases e : k = some w
        · simp [e, hz]
        · simp [e]
    · simp only [Ptrs.setFib, upd_apply]
      split
      · exact n
      · exact g.i.on w' hw'
  · right
    exact ⟨by rw [e], r⟩

theorem finalize_good (hd : Disc body pend dirty) {s : CS σ V E} (g : Good body size pend may s) (hw : s.p.fib w ≠ 0) (hi : s.x.c.pc w = .idle) :
    ∃ h, finalize w s = .ok ⟨s.x, s.p.setFib w 0, h⟩ ∧ Good body size pend may ⟨s.x, s.p.setFib w 0, h⟩ := by
  have ab := ab_of hd g.x
  have hz : ¬ Zomb (s.x.c.pc w) := by rw [hi]; exact id
  obtain ⟨h', e, j⟩ := g.i.j.drop (w := some w) hw hz (lone ab hz) (ab.id w hi)
  have e : Stack.destroy (s.p.fib w) s.heap = .ok () h' := e
  refine ⟨h', ?_, g.x, ?_, fun w' hw' => ?_⟩
  · unfold finalize
    rw [if_pos ⟨hw, hi⟩, e]
  · refine cast (congrFun (congrArg J (View.ext ?_ ?_ ?_ ?_ ?_ ?_ ?_)) h') j <;> simp only [view, Ptrs.setFib, elim_upd]
  · simp only [Ptrs.setFib, upd_apply]
    split
    · rename_i e; rw [e] at hw'; exact absurd hi hw'
    · exact g.i.on w' hw'

theorem submit_good (hd : Disc body pend dirty) (hsz : ∀ d, size d ≤ maxSize) (hm : GoodMalloc m) {s : CS σ V E} (g : Good body size pend may s) (hf : Few s.x.c) {d : σ}
    (hp : pend d = 0) (w : Nat) :
    (∃ p h, submit m size s d w = .ok ⟨Exn.submit s.x d w, p, h⟩ ∧ p.fib = s.p.fib ∧ Good body size pend may ⟨Exn.submit s.x d w, p, h⟩) ∨
    (∃ h, submit m size s d w = .ok ⟨s.x, s.p, h⟩ ∧ Good body size pend may ⟨s.x, s.p, h⟩ ∧ ∃ h, Refused m h) := by
  have ab := ab_of hd g.x
  have hl : ∀ k, s.x.c.ns ≤ k → (view size s.x.c s.p).Lone none (2 * k) := by
    rintro k hk (_ | w') hne h0 hz'
    · exact absurd rfl h0
    · exact ab.fr2 _ hk w'
  unfold submit
  rcases g.i.j.schedule hm (w := none) (k := 2 * s.x.c.ns) (k' := 2 * (s.x.c.ns + 1)) (f := s.x.c.nf) (n := size d) rfl id (by omega) (ab.fr1 _ (Nat.le_refl _))
    (ab.fr1 _ (Nat.le_succ _)) (hl _ (Nat.le_refl _)) (hl _ (Nat.le_succ _)) (fun k hf => Nat.lt_irrefl _ (ab.lt k _ hf)) (hsz d) with ⟨t, a, h', e, j⟩ | ⟨h', e, j, h0, r⟩
  · left
    refine ⟨⟨s.p.fib, upd s.p.lab s.x.c.nf t, upd s.p.addr s.x.c.nf a⟩, h', by rw [e], rfl, .submit w g.x hf hp, ?_, fun w' hw' => g.i.on w' hw'⟩
    refine cast (congrFun (congrArg J (View.ext ?_ ?_ ?_ ?_ ?_ ?_ ?_)) h') j <;> simp only [view, Exn.submit, Verif.Runtime.submit, Verif.Runtime.newFrame]
    · rw [ab.fr1 _ (Nat.le_refl _)]; rfl
    · rfl
    · rfl
    · funext f
      simp only [upd', upd]
      split <;> rfl
  · right
    exact ⟨h', by rw [e], ⟨g.x, j, g.i.on⟩, h0, r⟩

theorem start_good (x : σ) : Good body size pend may (CS.start x : CS σ V E) := by
  refine ⟨.start x, ?_, fun w hw => absurd rfl hw⟩
  refine ⟨Stack.World.init, fun _ => ⟨[], none⟩, rfl, ?_, fun k => ?_, ?_, ?_, ?_, ?_⟩
  · exact ⟨(fun _ _ h => by cases h), (fun _ _ _ _ _ h => by cases h), (fun _ _ h => by cases h), (fun _ _ h => by cases h), (fun _ _ _ _ h => by cases h)⟩
  · constructor
    · intro h; exact absurd rfl h
    · rintro (h | ⟨w, h1, -⟩)
      · exact absurd rfl h
      · exact absurd (by cases w <;> rfl) h1
  · intro _ _ h; cases h
  · intro _ _ h; cases h
  · intro _ _ h; cases h
  · intro _ _ _ _ h; cases h

theorem reach_good (hd : Disc body pend dirty) (hsz : ∀ d, size d ≤ maxSize) (ho : may oom) {s : CS σ V E} (h : Reach body size oom pend may s) :
    Good body size pend may s := by
  induction h with
  | start x => exact start_good x
  | @init s s' m w _ hm e g =>
    by_cases hw : s.p.fib w = 0
    · rcases init_good hd hm g hw with ⟨t, h, e1, _, g'⟩ | ⟨e1, _⟩
      · rw [e1] at e; cases e; exact g'
      · rw [e1] at e; cases e; exact g
    · unfold init at e; rw [if_neg hw] at e; cases e
  | @finalize s s' w _ e g =>
    by_cases hc : s.p.fib w ≠ 0 ∧ s.x.c.pc w = .idle
    · obtain ⟨h, e1, g'⟩ := finalize_good hd g hc.1 hc.2
      rw [e1] at e; cases e; exact g'
    · unfold finalize at e; rw [if_neg hc] at e; cases e
  | @submit s s' m d w _ hm hf hp e g =>
    rcases submit_good hd hsz hm g hf hp w with ⟨p, h, e1, -, g'⟩ | ⟨h, e1, g', -⟩
    · rw [e1] at e; cases e; exact g'
    · rw [e1] at e; cases e; exact g'
  | @step s s' m w ch _ hm hf ha e g =>
    by_cases hw : s.p.fib w = 0
    · unfold step at e; rw [if_pos hw] at e; cases e
    · cases e1 : Exn.step body w ch s.x with
      | ok x' =>
        rcases step_good (m := m) hd hsz ho hm g hf ha hw e1 with ⟨p, h, e2, g'⟩ | ⟨-, -, x1, -, e2, g'⟩ | ⟨-, -, e2⟩
        · rw [e2] at e; cases e; exact g'
        · rw [e2] at e; cases e; exact g'
        · rw [e2] at e; cases e
      | ub => unfold step at e; rw [if_neg hw, e1] at e; cases e
      | no => unfold step at e; rw [if_neg hw, e1] at e; cases e

end Verif.Cactus
