import Verif.Exn.Spec
import Verif.Runtime.Props

/-!
A program with exceptions as a program without: which fork fails, what a sync fork answers and which exception a join rethrows is
read from a part of the task's state. Proof device only; the theorems do not mention it.
-/
namespace Verif.Exn
open Classical
variable {σ V E : Type}

/-- What will happen to a task. -/
inductive Orc (E : Type) where
  | nil
  | fail (e : E) (o : Orc E)
  | ready (o : Orc E)
  | go (o : Orc E)
  | fork (kid : Orc E) (b : Bool) (o : Orc E)
  | exc (e : E) (o : Orc E)

namespace Orc
def rest : Orc E → Orc E
  | nil => nil
  | fail _ o => o
  | ready o => o
  | go o => o
  | fork _ _ o => o
  | exc _ o => o
def kid : Orc E → Orc E
  | fork k _ _ => k
  | _ => nil
def bit : Orc E → Bool
  | fork _ b _ => b
  | _ => true
def ex : Orc E → Option E
  | exc e _ => some e
  | _ => none
end Orc

abbrev T (σ E : Type) := σ × List E × Orc E

/-- The next state in which something happens that the runtime notices. -/
noncomputable def norm (body : σ → Act σ V E) (may : E → Prop) : Orc E → σ → List E → T σ E
  | .fail e o, s, es =>
    if may e then
      match body s with
      | .fork _ _ x => norm body may o (x e) es
      | .call _ _ x => norm body may o (x e) es
      | .switch _ _ x => norm body may o (x e) es
      | _ => (s, es, .fail e o)
    else (s, es, .fail e o)
  | .ready o, s, es =>
    match body s with
    | .switch _ k _ => norm body may o k es
    | _ => (s, es, .ready o)
  | o, s, es => (s, es, o)

noncomputable def pick (x : Option E) (e0 : E) (l : List E) : E :=
  match x with
  | some e => if e ∈ e0 :: l then e else e0
  | none => e0

theorem pick_mem (x : Option E) (e0 : E) (l : List E) : pick x e0 l ∈ e0 :: l := by
  unfold pick; split
  · split
    · assumption
    · exact List.mem_cons_self ..
  · exact List.mem_cons_self ..

/-- After a join. -/
noncomputable def after (body : σ → Act σ V E) (may : E → Prop) (k : List V → σ) (x : E → List (Option V) → σ) (es : List E)
    (o : Orc E) (rs : List (Except E V)) : T σ E :=
  match errs rs ++ es with
  | [] => norm body may o (k (oks rs)) []
  | e0 :: l => norm body may o.rest (x (pick o.ex e0 l) (rs.map Except.toOption)) []

noncomputable def tgt (body : σ → Act σ V E) (may : E → Prop) (y : T σ E) : Verif.Runtime.Act (T σ E) (Except E V) :=
  match body y.1 with
  | .ret v => .ret (.ok v)
  | .throw e => .ret (.error e)
  | .fork c k _ => .fork (norm body may y.2.2.kid c []) (norm body may y.2.2.rest (k y.2.2.bit) y.2.1)
  | .call c k _ => .call (norm body may y.2.2.kid c []) fun r =>
      match r with
      | .ok v => norm body may y.2.2.rest (k (some v)) y.2.1
      | .error e => norm body may y.2.2.rest (k none) (e :: y.2.1)
  | .join k x => .join (after body may k x y.2.1 y.2.2)
  | .switch d k _ => .switch d (norm body may y.2.2.rest k y.2.1)

variable {body : σ → Act σ V E} {pend : σ → Nat} {dirty : σ → Prop} {may : E → Prop}

theorem norm_es (o : Orc E) (s : σ) (es : List E) : (norm body may o s es).2.1 = es := by
  induction o generalizing s with
  | fail e o ih =>
    unfold norm; split
    · split <;> first | exact ih _ | rfl
    · rfl
  | ready o ih => unfold norm; split <;> first | exact ih _ | rfl
  | _ => rfl

theorem norm_pend (hd : Disc body pend dirty) (o : Orc E) (s : σ) (es : List E) : pend (norm body may o s es).1 = pend s := by
  induction o generalizing s with
  | fail e o ih =>
    unfold norm; split
    · split
      · rename_i h; rw [ih]; exact ((hd.fork _ _ _ _ h).2.2 e).1
      · rename_i h; rw [ih]; exact ((hd.call _ _ _ _ h).2.2 e).1
      · rename_i h; rw [ih]; exact ((hd.switch _ _ _ _ h).2.2 e).1
      · rfl
    · rfl
  | ready o ih =>
    unfold norm; split
    · rename_i h; rw [ih]; exact (hd.switch _ _ _ _ h).1
    · rfl
  | _ => rfl

theorem norm_ser {rs : List (Except E V)} {r : Except E V} (o : Orc E) (s : σ) (es : List E)
    (h : Ser body may (norm body may o s es).1 rs es r) : Ser body may s rs es r := by
  induction o generalizing s with
  | fail e o ih =>
    unfold norm at h; split at h
    · rename_i hm
      split at h
      · rename_i hb; exact .forkFails e hm hb (ih _ h)
      · rename_i hb; exact .callFails e hm hb (ih _ h)
      · rename_i hb; exact .switchFails e hm hb (ih _ h)
      · exact h
    · exact h
  | ready o ih =>
    unfold norm at h; split at h
    · rename_i hb; exact .switch hb (ih _ h)
    · exact h
  | _ => exact h

theorem disc_tgt (hd : Disc body pend dirty) : Verif.Runtime.Disc (tgt body may) (fun y => pend y.1) where
  ret y v h := by
    unfold tgt at h
    split at h <;> cases h
    · rename_i hb; exact (hd.ret _ _ hb).1
    · rename_i hb; exact (hd.throw _ _ hb).1
  fork y c k h := by
    unfold tgt at h
    split at h <;> cases h
    rename_i hb
    have := hd.fork _ _ _ _ hb
    exact ⟨(norm_pend hd ..).trans this.1, (norm_pend hd ..).trans (this.2.1 _).1⟩
  call y c k h := by
    unfold tgt at h
    split at h <;> cases h
    rename_i hb
    have := hd.call _ _ _ _ hb
    refine ⟨(norm_pend hd ..).trans this.1, fun v => ?_⟩
    cases v <;> exact (norm_pend hd ..).trans (this.2.1 _).1
  join y k h l := by
    unfold tgt at h
    split at h <;> cases h
    rename_i hb
    have := hd.join _ _ _ hb
    show pend (after ..).1 = 0
    unfold after
    split
    · exact (norm_pend hd ..).trans (this.1 _)
    · exact (norm_pend hd ..).trans (this.2 _ _)
  switch y d k h := by
    unfold tgt at h
    split at h <;> cases h
    rename_i hb
    exact (norm_pend hd ..).trans (hd.switch _ _ _ _ hb).1

/-- The serial elision of the translated program is one of the program with exceptions. -/
theorem ser_tgt {y : T σ E} {rs : List (Except E V)} {r : Except E V} (h : Verif.Runtime.Ser (tgt body may) y rs r) :
    Ser body may y.1 rs y.2.1 r := by
  induction h with
  | ret h =>
    unfold tgt at h
    split at h <;> cases h
    · exact .ret ‹_›
    · exact .throw ‹_›
  | fork h _ _ ih1 ih2 =>
    unfold tgt at h
    split at h <;> cases h
    have hb := ‹body _ = _›
    rw [norm_es] at ih1 ih2
    exact .fork _ hb (norm_ser _ _ _ ih1) (norm_ser _ _ _ ih2)
  | call h _ _ ih1 ih2 =>
    unfold tgt at h
    split at h <;> cases h
    have hb := ‹body _ = _›
    rename_i z _ _ _ _ _ _ _ _
    cases z with
    | ok v =>
      rw [norm_es] at ih1
      simp only [norm_es] at ih2
      exact .call hb (norm_ser _ _ _ ih1) (norm_ser _ _ _ ih2)
    | error e =>
      rw [norm_es] at ih1
      simp only [norm_es] at ih2
      exact .callThrew hb (norm_ser _ _ _ ih1) (norm_ser _ _ _ ih2)
  | join h _ ih =>
    unfold tgt at h
    split at h <;> cases h
    have hb := ‹body _ = _›
    unfold after at ih
    split at ih
    · rename_i he
      rw [norm_es] at ih
      have he := List.append_eq_nil_iff.1 he
      rw [he.2]
      exact .join hb he.1 (norm_ser _ _ _ ih)
    · rename_i e0 l he
      rw [norm_es] at ih
      exact .rethrow hb (he ▸ pick_mem _ _ _) (norm_ser _ _ _ ih)
  | switch h _ ih =>
    unfold tgt at h
    split at h <;> cases h
    have hb := ‹body _ = _›
    rw [norm_es] at ih
    exact .switch hb (norm_ser _ _ _ ih)

end Verif.Exn
