import Verif.Cactus.Sim
import Verif.Cactus.Spec

/-!
Every step, case by case.
-/
namespace Verif.Cactus
open Verif.Runtime (State Res Fr Pc Loc Link Zomb upd upd_apply upd_same upd_ne)
open Verif.Exn (XS Act Choice)
open Verif.Stack (Malloc Heap GoodMalloc maxSize)

variable {σ V E : Type} {size : σ → Nat} {m : Malloc} {body : σ → Act σ V E} {w : Nat} {ch : Choice E} {x x' : XS σ V E} {p : Ptrs} {h : Heap}

def Fine (size : σ → Nat) (m : Malloc) (body : σ → Act σ V E) (w : Nat) (x x' : XS σ V E) (h : Heap) (r : Stack.Res Ptrs) : Prop :=
  (∃ p' h', r = .ok p' h' ∧ CInv size x'.c p' h') ∨
  (r = .badAlloc h ∧ (∃ n, m h n = none) ∧ ((∀ f, x.c.pc w ≠ .run f) ∨ Spawns body x w))

theorem upd_upd {α : Type} (f : Nat → α) (i : Nat) (a b : α) : upd (upd f i a) i b = upd f i b := by
  funext k
  simp only [upd_apply]
  split <;> rfl

theorem Fine.of_ok {r : Stack.Res Ptrs} (e : r = .ok p h) (i : CInv size x'.c p h) : Fine size m body w x x' h r := .inl ⟨p, h, e, i⟩

section
variable (hm : GoodMalloc m) (hsz : ∀ d, size d ≤ maxSize) (ab : Ab x.c) (i : CInv size x.c p h) (hw : p.fib w ≠ 0)
include ab i hw

theorem fine_idle (hp : x.c.pc w = .idle) (e : Exn.step body w ch x = .ok x') : Fine size m body w x x' h (ops m body size w ch x.c p h) := by
  have he := ab.id w hp
  have hz : ¬ Zomb (x.c.pc w) := by rw [hp]; exact id
  have hem := doEmpty_ok (i.empty hw hz he)
  unfold Exn.step at e
  unfold ops
  rw [hp] at e ⊢
  simp only at e ⊢
  cases ch with
  | go g =>
    cases g with
    | take =>
      simp only at e ⊢
      obtain ⟨c1, e1, rfl⟩ := plain_kept e
      unfold Verif.Runtime.take at e1
      cases hi : x.c.inbox w with
      | nil => rw [hi] at e1; cases e1
      | cons f r =>
        rw [hi] at e1
        simp only at e1 ⊢
        split at e1
        · rename_i hc
          cases hx : x'.c with
          | mk a1 a2 a3 a4 a5 a6 a7 a8 a9 a10 a11 a12 a13 a14 =>
          rw [hx] at e1
          have e1 := (Res.ok.inj e1)
          split
          · rename_i h0
            rw [if_pos h0, ← hx] at e1
            obtain ⟨h', e2, i'⟩ := i.take (c' := x'.c) ab hw hz he (isTop_iff.1 (hc.2.2.2 h0)) (by rw [← e1]) (by rw [← e1]) (by rw [← e1]) (by rw [← e1]) (q := .run f) id
            exact .inl ⟨_, _, e2, i'⟩
          · rename_i h0
            rw [if_neg h0, ← hx] at e1
            exact .of_ok hem (i.keep hw (w := w) (q := .run f) ⟨by rw [← e1], by rw [← e1], by rw [← e1], by rw [← e1]⟩ (by rw [hp]; exact Iff.rfl))
        · cases e1
    | steal v =>
      simp only at e ⊢
      obtain ⟨c1, e1, rfl⟩ := plain_kept e
      unfold Verif.Runtime.steal at e1
      split at e1
      · split at e1
        · have e1 := (Res.ok.inj e1)
          exact .of_ok hem (i.keep hw (w := w) (q := .stole _) ⟨by rw [← e1], by rw [← e1], by rw [← e1], by rw [← e1]⟩ (by rw [hp]; exact Iff.rfl))
        · split at e1 <;> cases e1
      · cases e1
  | fail _ _ => cases e
  | ready => cases e

theorem fine_plain (hp : (∃ f, x.c.pc w = .joinLoad f) ∨ (∃ f, x.c.pc w = .joinSub f) ∨ (∃ a b, x.c.pc w = .finPop a b) ∨ (∃ a b d, x.c.pc w = .finDec a b d) ∨
    (∃ f, x.c.pc w = .stole f)) (e : Exn.step body w ch x = .ok x') : Fine size m body w x x' h (ops m body size w ch x.c p h) := by
  unfold Exn.step at e
  unfold ops
  rcases hp with ⟨f, hp⟩ | ⟨f, hp⟩ | ⟨a, b, hp⟩ | ⟨a, b, d, hp⟩ | ⟨f, hp⟩ <;> rw [hp] at e ⊢ <;> simp only at e ⊢
  · obtain ⟨c1, e1, rfl⟩ := plain_kept e
    unfold Verif.Runtime.joinLoad at e1
    simp only at e1
    split at e1 <;> have e1 := (Res.ok.inj e1)
    · exact .of_ok rfl (i.keep hw (w := w) (q := .joinTake f) ⟨by rw [← e1], by rw [← e1], by rw [← e1], by rw [← e1]⟩ (by rw [hp]; exact Iff.rfl))
    · exact .of_ok rfl (i.keep hw (w := w) (q := .joinSub f) ⟨by rw [← e1], by rw [← e1], by rw [← e1], by rw [← e1]⟩ (by rw [hp]; exact Iff.rfl))
  · obtain ⟨c1, e1, rfl⟩ := plain_kept e
    unfold Verif.Runtime.joinSub at e1
    simp only at e1
    split at e1 <;> have e1 := (Res.ok.inj e1)
    · exact .of_ok rfl (i.keep hw (w := w) (q := .joinTake f) ⟨by rw [← e1], by rw [← e1], by rw [← e1], by rw [← e1]⟩ (by rw [hp]; exact Iff.rfl))
    · exact .of_ok rfl (i.keep hw (w := w) (q := .selfSteal) ⟨by rw [← e1], by rw [← e1], by rw [← e1], by rw [← e1]⟩ (by rw [hp]; exact Iff.rfl))
  · unfold Verif.Runtime.finPop at e
    cases hq : x.c.q w with
    | nil =>
      rw [hq] at e
      simp only at e
      obtain ⟨c1, e1, rfl⟩ := plain_kept e
      split at e1
      · have e1 := (Res.ok.inj e1)
        exact .of_ok rfl (i.keep hw (w := w) (q := .finDec a b _) ⟨by rw [← e1], by rw [← e1], by rw [← e1], by rw [← e1]⟩ (by rw [hp]; exact Iff.rfl))
      · cases e1
    | cons y l =>
      rw [hq] at e
      simp only at e
      obtain ⟨c1, e1, hk⟩ := wake_kept (w := w) (q := .run a) e
      split at e1
      · have e1 := (Res.ok.inj e1)
        refine .of_ok rfl (i.keep hw (w := w) (q := .run a) (hk _ ⟨?_, ?_, ?_, ?_⟩) (by rw [hp]; exact Iff.rfl)) <;> rw [← e1] <;> rfl
      · cases e1
  · obtain ⟨c1, e1, rfl⟩ := plain_kept e
    unfold Verif.Runtime.finDec at e1
    simp only at e1
    split at e1
    · split at e1 <;> have e1 := (Res.ok.inj e1)
      · refine .of_ok rfl (i.keep hw (w := w) (q := .finWin a d) ⟨?_, ?_, ?_, ?_⟩ (by rw [hp]; exact Iff.rfl)) <;> rw [← e1] <;> rfl
      · have hk : Kept x.c x'.c w (.finLose d) := by constructor <;> rw [← e1] <;> rfl
        cases d with
        | true =>
          refine .of_ok rfl (i.give hw hk trivial ?_)
          have := ab.dO w a b hp
          rw [this.1]
          intro hn
          rw [hn] at this
          cases this.2
        | false => exact .of_ok rfl (i.keep hw hk (by rw [hp]; exact Iff.rfl))
    · cases e1
  · obtain ⟨c1, e1, hk⟩ := wake_kept (w := w) (q := .run f) e
    unfold Verif.Runtime.stole at e1
    split at e1
    · have e1 := (Res.ok.inj e1)
      refine .of_ok rfl (i.keep hw (w := w) (q := .run f) (hk _ ⟨?_, ?_, ?_, ?_⟩) (by rw [hp]; exact Iff.rfl)) <;> rw [← e1]
    · cases e1

theorem fine_take (hp : (∃ f, x.c.pc w = .joinTake f) ∨ (∃ f b, x.c.pc w = .finWin f b)) (e : Exn.step body w ch x = .ok x') :
    Fine size m body w x x' h (ops m body size w ch x.c p h) := by
  unfold Exn.step at e
  unfold ops
  rcases hp with ⟨f, hp⟩ | ⟨f, b, hp⟩ <;> rw [hp] at e ⊢ <;> simp only at e ⊢
  · unfold Exn.joinTake at e
    split at e
    · rename_i hc
      obtain ⟨hk, h1, h2⟩ := passJoin_kept e
      obtain ⟨h', e2, i'⟩ := i.take (c' := x'.c) ab hw (by rw [hp]; exact id) (wkEmpty_iff.1 hc.2.1) (isTop_iff.1 hc.2.2) hk.al hk.wk hk.init hk.pc (q := .run f) id
      exact .inl ⟨_, _, doTakeTop_ok e2, i'⟩
    · cases e
  · unfold Exn.finWin at e
    split at e
    · cases b with
      | true =>
        simp only [if_true] at e ⊢
        obtain ⟨hk, h1, h2⟩ := passJoin_kept e
        have h1 : x.c.wk w = x.c.stk f := h1
        have h2 : (x.c.al (x.c.stk f)).head? = some f := h2
        refine .of_ok (check_ok (by rw [decide_eq_true_eq]; exact i.top hw (by rw [hp]; exact id) (by rw [h1]; exact h2))) ?_
        exact i.keep hw (w := w) (q := .run f) ⟨hk.al, hk.wk, hk.init, hk.pc⟩ (by rw [hp]; exact Iff.rfl)
      | false =>
        simp only [Bool.false_eq_true, if_false] at e ⊢
        split at e
        · rename_i hc
          obtain ⟨hk, h1, h2⟩ := passJoin_kept e
          obtain ⟨h', e2, i'⟩ := i.take (c' := x'.c) ab hw (by rw [hp]; exact id) (wkEmpty_iff.1 hc.1) (isTop_iff.1 hc.2) hk.al hk.wk hk.init hk.pc (q := .run f) id
          exact .inl ⟨_, _, doTakeTop_ok e2, i'⟩
        · cases e
    · cases e

include hm in
theorem fine_give (hp : (∃ b, x.c.pc w = .finLose b) ∨ (∃ b, x.c.pc w = .switchRel b) ∨ x.c.pc w = .selfSteal) (e : Exn.step body w ch x = .ok x') :
    Fine size m body w x x' h (ops m body size w ch x.c p h) := by
  unfold Exn.step at e
  unfold ops
  rcases hp with ⟨b, hp⟩ | ⟨b, hp⟩ | hp <;> rw [hp] at e ⊢ <;> simp only at e ⊢
  · obtain ⟨c1, e1, rfl⟩ := plain_kept e
    unfold Verif.Runtime.finLose at e1
    cases b with
    | true =>
      simp only [if_true] at e1
      split at e1
      · have e1 := (Res.ok.inj e1)
        rcases i.renew hm ab (w := w) (c' := x'.c) (q := .idle) (by rw [hp]; trivial) (by rw [← e1]; rfl) (by rw [← e1]; rfl) (by rw [← e1]; rfl) (by rw [← e1]) id with k | k
        · exact .inl k
        · exact .inr ⟨k.1, k.2, .inl (by rw [hp]; simp)⟩
      · cases e1
    | false =>
      simp only [Bool.false_eq_true, if_false] at e1
      split at e1
      · rename_i hc
        have e1 := (Res.ok.inj e1)
        refine .of_ok (doGive_ok (i.empty hw (by rw [hp]; exact id) (wkEmpty_iff.1 hc.1))) (i.keep hw (w := w) (q := .idle) ⟨?_, ?_, ?_, ?_⟩ (by rw [hp]; exact Iff.rfl)) <;> rw [← e1]
      · cases e1
  · obtain ⟨c1, e1, rfl⟩ := plain_kept e
    unfold Verif.Runtime.switchRel at e1
    cases b with
    | true =>
      simp only [if_true] at e1
      split at e1
      · have e1 := (Res.ok.inj e1)
        rcases i.renew hm ab (w := w) (c' := x'.c) (q := .selfSteal) (by rw [hp]; trivial) (by rw [← e1]; rfl) (by rw [← e1]; rfl) (by rw [← e1]; rfl) (by rw [← e1]) id with k | k
        · exact .inl k
        · exact .inr ⟨k.1, k.2, .inl (by rw [hp]; simp)⟩
      · cases e1
    | false =>
      simp only [Bool.false_eq_true, if_false] at e1
      split at e1
      · rename_i hc
        have e1 := (Res.ok.inj e1)
        refine .of_ok (doGive_ok (i.empty hw (by rw [hp]; exact id) (wkEmpty_iff.1 hc))) (i.keep hw (w := w) (q := .selfSteal) ⟨?_, ?_, ?_, ?_⟩ (by rw [hp]; exact Iff.rfl)) <;> rw [← e1]
      · cases e1
  · obtain ⟨c1, e1, rfl⟩ := plain_kept e
    unfold Verif.Runtime.selfSteal at e1
    cases hq : x.c.q w with
    | nil =>
      rw [hq] at e1
      simp only at e1
      rw [if_pos rfl]
      split at e1
      · rename_i hc
        have e1 := (Res.ok.inj e1)
        refine .of_ok (doEmpty_ok (i.empty hw (by rw [hp]; exact id) (wkEmpty_iff.1 hc))) (i.keep hw (w := w) (q := .idle) ⟨?_, ?_, ?_, ?_⟩ (by rw [hp]; exact Iff.rfl)) <;> rw [← e1]
      · cases e1
    | cons y l =>
      rw [hq] at e1
      simp only at e1
      have e1 := (Res.ok.inj e1)
      rw [if_neg (by simp)]
      refine .of_ok rfl (i.keep hw (w := w) (q := .stole y.1) ⟨?_, ?_, ?_, ?_⟩ (by rw [hp]; exact Iff.rfl)) <;> rw [← e1]

theorem keep_goOn {f : Nat} {y : σ} (hp : x.c.pc w = .run f) : CInv size (Exn.goOn x.c f y) p h := by
  refine i.keep hw (w := w) (q := .run f) ⟨rfl, rfl, rfl, ?_⟩ (by rw [hp])
  funext k
  simp only [Exn.goOn, upd_apply]
  split
  · rename_i e; rw [e, hp]
  · rfl

theorem fine_end {f : Nat} {r : Except E V} (hp : x.c.pc w = .run f) (e : Exn.doEnd body x w f r = .ok x') :
    Fine size m body w x x' h (doPop w f (decide (x.c.link f = .root)) p h) := by
  have hz : ¬ Zomb (x.c.pc w) := by rw [hp]; exact id
  have key : ∀ {c1}, Verif.Runtime.destroy x.c w f = .ok c1 → ∀ {q : Pc}, ¬ Zomb q → x'.c.al = c1.al → x'.c.wk = c1.wk → x'.c.init = c1.init → x'.c.pc = upd x.c.pc w q →
      (x.c.link f = .root → x'.c.al (x'.c.wk w) = []) →
      Fine size m body w x x' h (doPop w f (decide (x.c.link f = .root)) p h) := by
    intro c1 e1 q hq h1 h2 h3 h4 hr
    unfold Verif.Runtime.destroy at e1
    split at e1
    · rename_i hc
      have e1 := (Res.ok.inj e1)
      have ht := isTop_iff.1 hc.2
      rw [← hc.1] at ht
      obtain ⟨L, hL⟩ : ∃ L, x.c.al (x.c.wk w) = f :: L := by
        cases hx : x.c.al (x.c.wk w) with
        | nil => rw [hx] at ht; cases ht
        | cons a L => rw [hx] at ht; cases ht; exact ⟨L, rfl⟩
      obtain ⟨t, h', e2, hn, i'⟩ := i.pop ab hw hz (c' := x'.c) (q := q) hL (by rw [h1, ← e1]; simp only [hL, List.tail_cons]) (by rw [h2, ← e1]) (by rw [h3, ← e1]) h4 hq
      refine .inl ⟨_, h', ?_, i'⟩
      unfold doPop
      rw [Stack.bind_ok e2]
      by_cases hl : x.c.link f = .root
      · have := i'.empty (w := w) (by simp [Ptrs.setFib, upd_same, hn]) (by rw [h4, upd_same]; exact hq) (hr hl)
        simp only [Ptrs.setFib, upd_same] at this
        rw [decide_eq_true hl, if_pos rfl, Stack.bind_ok this]
        rfl
      · rw [decide_eq_false hl, if_neg (by simp)]
        rfl
    · cases e1
  unfold Exn.doEnd at e
  simp only at e
  split at e
  · split at e
    · split at e
      · rename_i s1 e1
        split at e
        · rename_i hc
          have e := congrArg XS.c (Res.ok.inj e)
          exact key e1 (q := .idle) id (by rw [← e]) (by rw [← e]) (by rw [← e]) (by rw [← e]) (fun _ => by rw [← e]; exact wkEmpty_iff.1 hc.1)
        · cases e
      · cases e
    · rename_i hl
      split at e
      · split at e
        · rename_i s1 _ _ e1
          have e := congrArg XS.c (Res.ok.inj e)
          exact key e1 (q := .run _) id (by rw [← e]) (by rw [← e]) (by rw [← e]) (by rw [← e]) (fun h0 => by rw [h0] at hl; cases hl)
        · cases e
      · cases e
    · rename_i hl
      split at e
      · split at e
        · rename_i s1 e1
          have e := congrArg XS.c (Res.ok.inj e)
          exact key e1 (q := .finPop _ _) id (by rw [← e]) (by rw [← e]) (by rw [← e]) (by rw [← e]) (fun h0 => by rw [h0] at hl; cases hl)
        · cases e
      · cases e
  · cases e

include hm hsz

theorem fine_spawn {f : Nat} {d : σ} (hp : x.c.pc w = .run f) (hs : Spawns body x w) (h1 : x'.c.al = upd x.c.al (x.c.wk w) (x.c.nf :: x.c.al (x.c.wk w)))
    (h2 : x'.c.wk = x.c.wk) (h3 : x'.c.init = upd x.c.init x.c.nf d) (h4 : x'.c.pc = upd x.c.pc w (.run x.c.nf)) :
    Fine size m body w x x' h (doPush m w (size d) x.c.nf p h) := by
  rcases i.push hm ab hw (w := w) (by rw [hp]; exact id) (hsz d) h1 h2 h3 h4 id with ⟨t, a, h', e, i'⟩ | ⟨e, k⟩
  · refine .inl ⟨_, h', ?_, i'⟩
    unfold doPush
    rw [Stack.bind_ok e]
    rfl
  · refine .inr ⟨?_, k, .inr hs⟩
    unfold doPush
    rw [Stack.bind_apply, e]

theorem fine_late {f : Nat} {d y : σ} (hp : x.c.pc w = .run f) (hs : Spawns body x w) (hx : x'.c = Exn.goOn x.c f y) :
    Fine size m body w x x' h (doPushPop m w (size d) p h) := by
  have hz : ¬ Zomb (x.c.pc w) := by rw [hp]; exact id
  have hpc : x.c.pc = upd x.c.pc w (.run f) := by
    funext k
    rw [upd_apply]
    split
    · rename_i e; rw [e, hp]
    · rfl
  let c1 : State σ (Except E V) := { x.c with al := upd x.c.al (x.c.wk w) (x.c.nf :: x.c.al (x.c.wk w)), init := upd x.c.init x.c.nf d, nf := x.c.nf + 1 }
  rcases i.push hm ab hw (w := w) (c' := c1) hz (hsz d) rfl rfl rfl hpc id with ⟨t, a, h', e, i'⟩ | ⟨e, k⟩
  · have ab1 : Ab c1 := by
      refine ⟨ab.inj, fun n hn => ?_, ab.fr2, fun w' g k hg => ?_, fun k g hg => ?_, fun w' hw' => ?_, fun w' g hg => ?_⟩
      · have : 2 * n ≠ x.c.wk w := fun e => ab.fr2 n hn w e.symm
        simp only [c1, upd_apply, if_neg this]
        exact ab.fr1 n hn
      · have := ab.dO w' g k hg
        have hne : x.c.stk g ≠ x.c.wk w := by
          intro e
          have h1 : w' = w := ab.inj w' w (by have : x.c.pc w' = .finDec g k true := hg; rw [this]; exact id) hz (by rw [this.1, e])
          rw [h1] at hg
          have hg : x.c.pc w = .finDec g k true := hg
          rw [hp] at hg; cases hg
        simp only [c1, upd_apply, if_neg hne]
        exact this
      · simp only [c1, upd_apply] at hg ⊢
        split at hg
        · rcases List.mem_cons.1 hg with rfl | hg
          · exact Nat.lt_succ_self _
          · exact Nat.lt_succ_of_lt (ab.lt _ _ hg)
        · exact Nat.lt_succ_of_lt (ab.lt _ _ hg)
      · have hw'' : x.c.pc w' = .idle := hw'
        have hne : x.c.wk w' ≠ x.c.wk w := by
          intro e
          have h1 : w' = w := ab.inj w' w (by rw [hw'']; exact id) hz e
          rw [h1, hp] at hw''; cases hw''
        simp only [c1, upd_apply, if_neg hne]
        exact ab.id w' hw'
      · have := ab.run w' g hg
        simp only [c1, upd_apply]
        split
        · rename_i e; rw [← e]; exact List.mem_cons_of_mem _ this
        · exact this
    obtain ⟨t', h'', e2, hn, i2⟩ := i'.pop ab1 (w := w) (f := x.c.nf) (L := x.c.al (x.c.wk w)) (c' := { x.c with init := c1.init }) (q := .run f)
      (by simp only [Ptrs.push, upd_same]; intro e0; exact i'.on w (by show x.c.pc w ≠ _; rw [hp]; simp) (by simp only [Ptrs.push, upd_same]; exact e0))
      hz (by simp only [c1, upd_same]) (by
        funext k
        simp only [c1, upd_apply]
        split
        · rename_i e; rw [e]
        · rfl) rfl rfl hpc id
    simp only [Ptrs.push, upd_same] at e2
    refine .inl ⟨p.setFib w t', h'', ?_, ?_⟩
    · unfold doPushPop
      rw [Stack.bind_ok e, Stack.bind_ok e2]
      rfl
    · have i3 := i2
      rw [hx]
      refine ⟨?_, fun w' hw' => ?_⟩
      · obtain ⟨W, G, hh, r⟩ := i2.j
        refine ⟨W, G, hh, r.inv, fun k => ?_, r.own, fun k o ho => ?_, fun k o ho => ?_, fun w' o h1 h2 h3 => ?_⟩
        · have := r.dom k
          simpa only [view, Ptrs.setFib, Ptrs.push, View.Held, Exn.goOn, upd_upd] using this
        · rw [r.live k o ho]
          refine List.map_congr_left fun g hg => ?_
          have : g ≠ x.c.nf := fun e => Nat.lt_irrefl _ (ab.lt k x.c.nf (e ▸ hg))
          simp only [view, Ptrs.setFib, Ptrs.push, Exn.goOn, c1, upd_apply, if_neg this]
        · rw [r.tag k o ho]
          refine List.map_congr_left fun g hg => ?_
          have : g ≠ x.c.nf := fun e => Nat.lt_irrefl _ (ab.lt k x.c.nf (e ▸ hg))
          simp only [view, Ptrs.setFib, Ptrs.push, upd_apply, if_neg this]
        · have := r.fib w' o (by simpa only [view, Ptrs.setFib, Ptrs.push, Exn.goOn, upd_upd] using h1) h2 h3
          simpa only [view, Ptrs.setFib, Ptrs.push, Exn.goOn, upd_upd] using this
      · have := i2.on w' hw'
        simpa only [Ptrs.setFib, Ptrs.push, upd_upd] using this
  · refine .inr ⟨?_, k, .inr hs⟩
    unfold doPushPop
    rw [Stack.bind_apply, e]

theorem fine_run {f : Nat} (hp : x.c.pc w = .run f) (e : Exn.step body w ch x = .ok x') : Fine size m body w x x' h (ops m body size w ch x.c p h) := by
  have hz : ¬ Zomb (x.c.pc w) := by rw [hp]; exact id
  unfold Exn.step at e
  unfold ops
  rw [hp] at e ⊢
  simp only at e ⊢
  unfold Exn.run at e
  unfold runOps
  cases hb : body (x.c.fr f).st with
  | ret v =>
    cases ch <;> simp only [hb] at e ⊢
    · exact fine_end ab i hw hp e
    · cases e
    · cases e
  | throw v =>
    cases ch <;> simp only [hb] at e ⊢
    · exact fine_end ab i hw hp e
    · cases e
    · cases e
  | fork d k y =>
    have hs : Spawns body x w := ⟨f, hp, .inl ⟨d, k, y, hb⟩⟩
    cases ch with
    | go g =>
      simp only [hb] at e ⊢
      have e := congrArg XS.c (Res.ok.inj e)
      refine fine_spawn hm hsz ab i hw hp hs ?_ ?_ ?_ ?_ <;> rw [← e] <;> rfl
    | fail e1 late =>
      simp only [hb, Exn.failed_eq] at e ⊢
      have e := congrArg XS.c (Res.ok.inj e)
      cases late with
      | true => exact fine_late hm hsz ab i hw hp hs e.symm
      | false => exact .of_ok rfl (by rw [← e]; exact keep_goOn ab i hw hp)
    | ready => simp only [hb] at e; cases e
  | call d k y =>
    have hs : Spawns body x w := ⟨f, hp, .inr ⟨d, k, y, hb⟩⟩
    cases ch with
    | go g =>
      simp only [hb] at e ⊢
      have e := congrArg XS.c (Res.ok.inj e)
      refine fine_spawn hm hsz ab i hw hp hs ?_ ?_ ?_ ?_ <;> rw [← e] <;> rfl
    | fail e1 late =>
      simp only [hb, Exn.failed_eq] at e ⊢
      have e := congrArg XS.c (Res.ok.inj e)
      cases late with
      | true => exact fine_late hm hsz ab i hw hp hs e.symm
      | false => exact .of_ok rfl (by rw [← e]; exact keep_goOn ab i hw hp)
    | ready => simp only [hb] at e; cases e
  | join k y =>
    cases ch <;> simp only [hb] at e ⊢
    · unfold Exn.doJoin at e
      simp only at e
      split at e
      · rename_i h0
        obtain ⟨hk, h1, h2⟩ := passJoin_kept e
        have h1 : x.c.wk w = x.c.stk f := h1
        have h2 : (x.c.al (x.c.stk f)).head? = some f := h2
        rw [if_pos h0]
        refine .of_ok (check_ok (by rw [decide_eq_true_eq]; exact i.top hw hz (by rw [h1]; exact h2))) ?_
        exact i.keep hw (w := w) (q := .run f) ⟨hk.al, hk.wk, hk.init, hk.pc⟩ (by rw [hp])
      · rename_i h0
        rw [if_neg h0]
        have e := congrArg XS.c (Res.ok.inj e)
        refine .of_ok rfl (i.keep hw (w := w) (q := .joinLoad f) ⟨?_, ?_, ?_, ?_⟩ (by rw [hp]; exact Iff.rfl)) <;> rw [← e]
    · cases e
    · cases e
  | switch d k y =>
    cases ch <;> simp only [hb] at e ⊢
    · unfold Verif.Runtime.doSwitch at e
      simp only at e
      split at e
      · rename_i hc
        have e := congrArg XS.c (Res.ok.inj e)
        have hk : Kept x.c x'.c w (.switchRel (decide ((x.c.fr f).steal = 0))) := by constructor <;> rw [← e]
        by_cases h0 : (x.c.fr f).steal = 0
        · rw [decide_eq_true h0] at hk hc ⊢
          have h1 := hc.1 rfl
          have ht : (x.c.al (x.c.wk w)).head? = some f := by rw [h1.1]; exact isTop_iff.1 h1.2
          refine .of_ok (check_ok (by rw [decide_eq_true (i.top hw hz ht)]; rfl)) (i.give hw hk trivial fun hn => ?_)
          rw [hn] at ht; cases ht
        · rw [decide_eq_false h0] at hk hc ⊢
          have h1 := hc.2 rfl
          have hn := i.apart hw hz (ab.run w f hp) (fun e => h1 e.symm)
          exact .of_ok (check_ok (by rw [decide_eq_false hn]; rfl)) (i.keep hw hk (by rw [hp]; exact Iff.rfl))
      · cases e
    · exact .of_ok rfl (by rw [← congrArg XS.c (Res.ok.inj e)]; exact keep_goOn ab i hw hp)
    · exact .of_ok rfl (by rw [← congrArg XS.c (Res.ok.inj e)]; exact keep_goOn ab i hw hp)

end

end Verif.Cactus
