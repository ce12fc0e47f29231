import Verif.Own.Spec
import Verif.Hb.Props
import Verif.Cactus.Sim

/-!
Who knows about the accesses to a stack: its owner; and if it has none, what was published with the task on top of it.
-/
namespace Verif.Own
open Verif.Runtime (State Res Fr Pc Loc Link Alive Zomb Few upd upd_apply upd_same upd_ne)
open Verif.Exn (XS Choice)
open Verif.Mem (MS Act)
open Verif.Hb (HS Clk Fx sync)
open Verif.Cactus (Ab)

variable {σ V E L : Type}

/-- What Verif.Runtime.Inv knows about the owners of stacks. -/
structure Ow (c : State σ (Except E V)) : Prop where
  mem : ∀ f k, f ∈ c.al k → c.stk f = k
  jt : ∀ w p, c.pc w = .joinTake p → ∀ v, ¬ Zomb (c.pc v) → c.wk v ≠ c.stk p
  we : ∀ w p, c.pc w = .finWin p false → ∀ v, ¬ Zomb (c.pc v) → c.wk v ≠ c.stk p
  wo : ∀ w p, c.pc w = .finWin p true → c.wk w = c.stk p
  inb : ∀ w p, c.loc p = .inbox w → (c.fr p).steal = 0 → ∀ v, ¬ Zomb (c.pc v) → c.wk v ≠ c.stk p

theorem ow_of {body : σ → Exn.Act σ V E} {pend : σ → Nat} {dirty : σ → Prop} {may : E → Prop} (hd : Exn.Disc body pend dirty) {s : XS σ V E}
    (h : Exn.Reach body pend may s) : Ow s.c := by
  obtain ⟨es, r, hr, hrel⟩ := Exn.reach_rel hd h fun _ => .nil
  have hi := Verif.Runtime.reach_inv (Exn.disc_tgt hd) hr
  have hk := hi.stk
  have L := hi.loc
  have C := hi.count
  have b := hrel.base
  have wn : ∀ w p, r.loc p = .winning w → r.al (r.wk w) = [] → ∀ v, ¬ Zomb (r.pc v) → r.wk v ≠ r.stk p := by
    intro w p hl he v hz e
    have ha : Alive (r.loc p) := by rw [hl]; trivial
    have hj := C.join p ha
    rw [hl] at hj
    rcases Verif.Runtime.unowned L hi.link hk ha hj (fun c hc => by rw [hl] at hc; cases hc) hz e with h1 | h1
    · rw [hl] at h1; cases h1
    · rw [hl] at h1; cases h1
      have : p ∈ r.al (r.stk p) := (hk.mem p _).2 ⟨ha, rfl⟩
      rw [← e, he] at this
      cases this
  refine ⟨?_, ?_, ?_, ?_, ?_⟩
  · intro f k hf
    rw [← b.al] at hf
    rw [← b.stk]
    exact ((hk.mem f k).1 hf).2
  · intro w p hp v hz
    rw [← b.pc] at hp hz
    rw [← b.wk, ← b.stk]
    exact wn w p ((L.win w p).2 (.inl hp)) (hk.jt w p hp) v hz
  · intro w p hp v hz
    rw [← b.pc] at hp hz
    rw [← b.wk, ← b.stk]
    exact wn w p ((L.win w p).2 (.inr ⟨_, hp⟩)) (hk.we w p hp) v hz
  · intro w p hp
    rw [← b.pc] at hp
    rw [← b.wk, ← b.stk]
    exact (hk.wo w p hp).1
  · intro w p hl h0 v hz e
    rw [← b.loc] at hl
    rw [← b.steal] at h0
    rw [← b.pc] at hz
    rw [← b.wk, ← b.stk] at e
    have ha : Alive (r.loc p) := by rw [hl]; trivial
    have h1 := C.cnt p ha
    rw [← C.steal p ha, h0, hl] at h1
    simp only [Verif.Runtime.tok] at h1
    rcases Verif.Runtime.unowned L hi.link hk ha (List.eq_nil_of_length_eq_zero (by omega)) (fun c hc => by rw [hl] at hc; cases hc) hz e with h2 | h2 <;>
      (rw [hl] at h2; cases h2)

/-- All accesses to the stack `k` are in `l`. -/
def Knows (tr : List Acc) (k : Nat) (l : List Nat) : Prop := ∀ r ∈ tr, r.stack = k → r.no ∈ l

/-- What whoever takes the stack that `p` is on top of will know. -/
def Pub (c : State σ (Except E V)) (h : Clk) (p : Nat) : List Nat :=
  match c.loc p with
  | .inbox _ => if (c.fr p).steal = 0 then h.kb p else h.kj p
  | _ => h.kj p

structure KI (c : State σ (Except E V)) (h : Clk) (tr : List Acc) : Prop where
  own : ∀ v, ¬ Zomb (c.pc v) → Knows tr (c.wk v) (h.kn v)
  pub : ∀ k p, (c.al k).head? = some p → (∀ v, ¬ Zomb (c.pc v) → c.wk v ≠ k) → Knows tr k (Pub c h p)
  fresh : ∀ n, c.ns ≤ n → ∀ r ∈ tr, r.stack ≠ 2 * n

theorem Knows.sub {tr : List Acc} {k : Nat} {l l' : List Nat} (h : Knows tr k l) (hl : l ⊆ l') : Knows tr k l' := fun r hr e => hl (h r hr e)

/-- The accesses of a step. -/
def Now (n : Nat) (S : Nat → Prop) (T : List Acc) : Prop := ∀ r ∈ T, r.no = n ∧ S r.stack

theorem Knows.skip {T tr : List Acc} {k n : Nat} {S : Nat → Prop} {l : List Nat} (h : Knows tr k l) (hT : Now n S T) (hk : ¬ S k) : Knows (T ++ tr) k l := by
  intro r hr e
  rcases List.mem_append.1 hr with hr | hr
  · exact absurd (e ▸ (hT r hr).2) hk
  · exact h r hr e

theorem Knows.add {T tr : List Acc} {k n : Nat} {S : Nat → Prop} {l : List Nat} (h : Knows tr k l) (hT : Now n S T) (hn : n ∈ l) : Knows (T ++ tr) k l := by
  intro r hr e
  rcases List.mem_append.1 hr with hr | hr
  · rw [(hT r hr).1]; exact hn
  · exact h r hr e

def NI (l : Loc) : Prop := ∀ d, l ≠ .inbox d

variable {c c' : State σ (Except E V)} {h h' : Clk} {tr T : List Acc} {w n : Nat} {q : Pc}

theorem pub_ni {p : Nat} (hl : NI (c.loc p)) : Pub c h p = h.kj p := by
  unfold Pub
  split
  · rename_i d e; exact absurd e (hl d)
  · rfl

theorem pub_mono {p : Nat} (hl : (NI (c.loc p) ∧ NI (c'.loc p)) ∨ (c'.loc p = c.loc p ∧ (c'.fr p).steal = (c.fr p).steal)) (hb : h.kb p ⊆ h'.kb p) (hj : h.kj p ⊆ h'.kj p) :
    Pub c h p ⊆ Pub c' h' p := by
  rcases hl with ⟨h1, h2⟩ | ⟨h1, h2⟩
  · rw [pub_ni h1, pub_ni h2]; exact hj
  · unfold Pub
    rw [h1, h2]
    split
    · split
      · exact hb
      · exact hj
    · exact hj

/-- The worker keeps its stack, or gives it away. -/
theorem KI.keep (i : KI c h tr) (ab : Ab c) (hz : ¬ Zomb (c.pc w)) (hpc : c'.pc = upd c.pc w q) (hwk : c'.wk = c.wk) (hal : ∀ k, k ≠ c.wk w → c'.al k = c.al k) (hns : c'.ns = c.ns)
    (hkn : ∀ v, h.kn v ⊆ h'.kn v) (hn : n ∈ h'.kn w) (hT : Now n (· = c.wk w) T)
    (hP : ∀ p k, k ≠ c.wk w → (c.al k).head? = some p → Pub c h p ⊆ Pub c' h' p)
    (hq : Zomb q → ∃ p, (c'.al (c.wk w)).head? = some p ∧ h'.kn w ⊆ Pub c' h' p) : KI c' h' (T ++ tr) := by
  refine ⟨fun v hv => ?_, fun k p hp hu => ?_, fun m hm r hr => ?_⟩
  · rw [hwk]
    by_cases e : v = w
    · subst e; exact ((i.own v hz).sub (hkn v)).add hT hn
    · rw [hpc, upd_ne _ _ e] at hv
      exact ((i.own v hv).sub (hkn v)).skip hT fun e' => e (ab.inj v w hv hz e')
  · rw [hwk, hpc] at hu
    by_cases e : k = c.wk w
    · subst e
      have hzq : Zomb q := Classical.byContradiction fun hn => hu w (by rw [upd_same]; exact hn) rfl
      obtain ⟨p', h1, h2⟩ := hq hzq
      rw [h1] at hp; cases hp
      exact (((i.own w hz).sub (hkn w)).add hT hn).sub h2
    · rw [hal k e] at hp
      refine ((i.pub k p hp fun v hv => ?_).sub (hP p k e hp)).skip hT e
      by_cases ev : v = w
      · subst ev; exact fun h => e h.symm
      · exact hu v (by rw [upd_ne _ _ ev]; exact hv)
  · rw [hns] at hm
    rcases List.mem_append.1 hr with hr | hr
    · rw [(hT r hr).2]; exact ab.fr2 m hm w
    · exact i.fresh m hm r hr

/-- The worker takes the stack `k`. -/
theorem KI.take (i : KI c h tr) (ab : Ab c) (hz : ¬ Zomb (c.pc w)) (hpc : c'.pc = upd c.pc w q) (hzq : ¬ Zomb q) {k : Nat} (hwk : c'.wk = upd c.wk w k) (hal : c'.al = c.al)
    (hns : c'.ns = c.ns) (hkn : ∀ v, h.kn v ⊆ h'.kn v) (hn : n ∈ h'.kn w) (hT : Now n (fun j => j = c.wk w ∨ j = k) T) (hl : ∀ v, ¬ Zomb (c.pc v) → c.wk v ≠ k)
    {f : Nat} (hf : (c.al k).head? = some f) (he : c.al (c.wk w) = [])
    (hk : Pub c h f ⊆ h'.kn w) (hP : ∀ p j, j ≠ k → (c.al j).head? = some p → Pub c h p ⊆ Pub c' h' p) : KI c' h' (T ++ tr) := by
  have hkk := (i.pub k f hf hl).sub hk
  refine ⟨fun v hv => ?_, fun j p hp hu => ?_, fun m hm r hr => ?_⟩
  · rw [hwk]
    by_cases e : v = w
    · subst e; rw [upd_same]; exact hkk.add hT hn
    · rw [hpc, upd_ne _ _ e] at hv
      rw [upd_ne _ _ e]
      exact ((i.own v hv).sub (hkn v)).skip hT fun e' => e'.elim (fun e' => e (ab.inj v w hv hz e')) (hl v hv)
  · rw [hwk, hpc] at hu
    rw [hal] at hp
    have e1 : j ≠ k := fun e => hu w (by rw [upd_same]; exact hzq) (by rw [upd_same, e])
    have e2 : j ≠ c.wk w := by rintro rfl; rw [he] at hp; cases hp
    refine ((i.pub j p hp fun v hv => ?_).sub (hP p j e1 hp)).skip hT fun e => e.elim e2 e1
    by_cases ev : v = w
    · subst ev; exact fun h => e2 h.symm
    · have := hu v (by rw [upd_ne _ _ ev]; exact hv)
      rw [upd_ne _ _ ev] at this
      exact this
  · rw [hns] at hm
    rcases List.mem_append.1 hr with hr | hr
    · rcases (hT r hr).2 with e | e
      · rw [e]; exact ab.fr2 m hm w
      · rw [e]; rintro rfl; rw [ab.fr1 m hm] at hf; cases hf
    · exact i.fresh m hm r hr

/-- The worker gets a new stack. -/
theorem KI.renew (i : KI c h tr) (ab : Ab c) (hz : Zomb (c.pc w)) (hpc : c'.pc = upd c.pc w q) (hwk : c'.wk = upd c.wk w (2 * c.ns)) (hal : c'.al = c.al)
    (hns : c'.ns = c.ns + 1) (hkn : ∀ v, h.kn v ⊆ h'.kn v) (hn : n ∈ h'.kn w) (hT : Now n (· = 2 * c.ns) T)
    (hP : ∀ p k, (c.al k).head? = some p → Pub c h p ⊆ Pub c' h' p) : KI c' h' (T ++ tr) := by
  have hf : ∀ l, Knows tr (2 * c.ns) l := fun l r hr e => absurd e (i.fresh _ (Nat.le_refl _) r hr)
  refine ⟨fun v hv => ?_, fun j p hp hu => ?_, fun m hm r hr => ?_⟩
  · rw [hwk]
    by_cases e : v = w
    · subst e; rw [upd_same]; exact (hf _).add hT hn
    · rw [hpc, upd_ne _ _ e] at hv
      rw [upd_ne _ _ e]
      exact ((i.own v hv).sub (hkn v)).skip hT (ab.fr2 _ (Nat.le_refl _) v)
  · rw [hwk, hpc] at hu
    rw [hal] at hp
    have e1 : j ≠ 2 * c.ns := by rintro rfl; rw [ab.fr1 _ (Nat.le_refl _)] at hp; cases hp
    refine ((i.pub j p hp fun v hv => ?_).sub (hP p j hp)).skip hT e1
    have ev : v ≠ w := by rintro rfl; exact hv hz
    have := hu v (by rw [upd_ne _ _ ev]; exact hv)
    rw [upd_ne _ _ ev] at this
    exact this
  · rw [hns] at hm
    rcases List.mem_append.1 hr with hr | hr
    · rw [(hT r hr).2]; omega
    · exact i.fresh m (by omega) r hr

end Verif.Own
