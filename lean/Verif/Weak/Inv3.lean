import Verif.Weak.Inv2

/-! Invariants of the deque on the view machine: what a thief can rely on. -/
namespace Verif.Weak
open Verif.Deque (Ev OOp ORet SRet setT)
variable {ι : Type} [DecidableEq ι]

def isPopF : OPc → Bool
  | .popF _ _ => true
  | _ => false

def isPop3 : OPc → Bool
  | .pop3 _ _ => true
  | _ => false

/-- `n` messages with values `v` of m_bottom; index `t` has been in the deque ever since message `k`, unless the owner is
just trying to pop it (`u`). -/
def Since (n : Nat) (v : Nat → Int) (u : Bool) (t : Int) (k : Nat) : Prop :=
  ∀ k', k ≤ k' → k' < n → t < v k' ∨ (k' + 1 = n ∧ v k' = t ∧ u = true)

/-- What a thief can rely on. `T`: value of m_top; `sct`: global view of m_top; `u`, `p3`: the owner is in a pop before its
decision, or between its fence and its load of m_top; `oc`: the owner's view of m_top; `cb`, `ct`: the thief's view of
m_bottom and m_top. -/
def Th (T : Int) (sct n : Nat) (v : Nat → Int) (u p3 : Bool) (oc cb ct : Nat) : TPc → Prop
  | .idle | .ret _ | .st0 => True
  | .stF t => 0 ≤ t ∧ t ≤ T ∧ t ≤ ct
  | .st1 t => 0 ≤ t ∧ t ≤ T ∧ t ≤ sct ∧ (T = t → ∀ k, cb ≤ k → k < n → t < v k → Since n v u t k) ∧
      (T = t → p3 = true → t ≤ oc ∨ n ≤ cb + 1)
  | .st2 t k | .st3 t k _ | .st4 t k _ => 0 ≤ t ∧ t ≤ T ∧ t ≤ sct ∧ k < n ∧ t < v k ∧ (T = t → Since n v u t k) ∧
      (T = t → p3 = true → t ≤ oc ∨ n ≤ k + 1)

theorem Th.mono {T T' : Int} {sct sct' n : Nat} {v : Nat → Int} {u p3 p3' : Bool} {oc oc' cb ct : Nat} {pc : TPc}
    (h : Th T sct n v u p3 oc cb ct pc) (hT : T ≤ T') (hs : sct ≤ sct') (hp : p3' = true → p3 = true) (ho : oc ≤ oc') :
    Th T' sct' n v u p3' oc' cb ct pc := by
  cases pc <;> simp only [Th] at * <;> grind

theorem Th.store {T : Int} {sct n : Nat} {v v' : Nat → Int} {u u' p3 : Bool} {oc oc' cb ct : Nat} {pc : TPc} {x : Int}
    (h : Th T sct n v u p3 oc cb ct pc) (hu : u = false) (hn : 0 < n) (hx : T < v (n - 1) → T < x ∨ (x = T ∧ u' = true))
    (hv : ∀ k, k < n → v' k = v k) (hvn : v' n = x) :
    Th T sct (n + 1) v' u' false oc' cb ct pc := by
  subst hu
  have key : ∀ k, k < n → Since n v false T k → Since (n + 1) v' u' T k := by
    intro k hk hs k' h1 h2
    have h3 := hs (n - 1) (by omega) (by omega)
    have h4 := hx (by grind)
    have := hs k' h1
    have := hv k'
    grind
  have key2 : ∀ t, t < x → Since (n + 1) v' u' t n := by
    intro t ht k' h1 h2
    have : k' = n := by omega
    subst this
    grind
  clear hx
  cases pc <;> simp only [Th] at *
  case stF => exact h
  case st1 t =>
    refine ⟨h.1, h.2.1, h.2.2.1, ?_, by simp⟩
    rintro rfl k h1 h2 h3
    by_cases hk : k = n
    · subst hk; exact key2 _ (by rw [← hvn]; exact h3)
    · exact key k (by omega) (h.2.2.2.1 rfl k h1 (by omega) (by rw [← hv k (by omega)]; exact h3))
  all_goals
    obtain ⟨h1, h2, h3, h4, h5, h6, -⟩ := h
    refine ⟨h1, h2, h3, by omega, by rw [hv _ h4]; exact h5, ?_, by simp⟩
    rintro rfl
    exact key _ h4 (h6 rfl)

theorem Th.fence {T : Int} {sct sct' n : Nat} {v : Nat → Int} {u p3 : Bool} {oc oc' cb ct : Nat} {pc : TPc}
    (h : Th T sct n v u p3 oc cb ct pc) (hs : sct ≤ sct') (ho : sct ≤ oc') : Th T sct' n v u true oc' cb ct pc := by
  cases pc <;> simp only [Th] at * <;> grind

theorem Th.take {T : Int} {sct n : Nat} {v : Nat → Int} {u : Bool} {oc oc' cb ct : Nat} {pc : TPc} (hn : 0 < n)
    (h : Th T sct n v u true oc cb ct pc) (ho : (oc : Int) < v (n - 1)) : Th T sct n v false false oc' cb ct pc := by
  have key : ∀ t k, t < v k → Since n v u t k → (t ≤ oc ∨ n ≤ k + 1) → Since n v false t k := by
    intro t k h0 h1 h2 k' h3 h4
    have := h1 k' h3 h4
    grind
  cases pc <;> simp only [Th] at * <;> grind

theorem Th.empty {T : Int} {sct n : Nat} {v : Nat → Int} {u p3 : Bool} {oc oc' cb ct : Nat} {pc : TPc} (hn : 0 < n)
    (h : Th T sct n v u p3 oc cb ct pc) (hT : v (n - 1) < T) : Th T sct n v false false oc' cb ct pc := by
  have key : ∀ k, k < n → Since n v u T k → False := by
    intro k h0 h1
    have := h1 (n - 1) (by omega) (by omega)
    grind
  cases pc <;> simp only [Th] at * <;> grind

/-- A thief that has fenced at a moment when m_top was still what it has read. -/
theorem since_of_mon {n scb : Nat} {v : Nat → Int} {u pF : Bool}
    (mon : ∀ i j, scb ≤ i → i ≤ j → j < n → (pF = true → j + 1 < n) → v i ≤ v j)
    (hF : pF = true → 2 ≤ n ∧ v (n - 1) = v (n - 2) - 1 ∧ u = true) {t : Int} {k : Nat} (h1 : scb ≤ k) (h2 : k < n) (h3 : t < v k) :
    Since n v u t k := by
  intro k' h4 h5
  by_cases hp : pF = true ∧ k' + 1 = n
  · obtain ⟨h6, h7, h8⟩ := hF hp.1
    by_cases hk : k = k'
    · subst hk; exact .inl h3
    · have := mon k (n - 2) h1 (by omega) (by omega) (fun _ => by omega)
      have e : k' = n - 1 := by omega
      subst e
      by_cases h9 : t < v (n - 1)
      · exact .inl h9
      · exact .inr ⟨by omega, by omega, h8⟩
  · have := mon k k' h1 h4 h5 (fun h => by grind)
    exact .inl (by omega)

/-- The values of m_bottom since the last fence; the owner's knowledge of m_top. -/
structure IC (s : St ι) : Prop where
  mon : ∀ i j, s.mem.sc .bot ≤ i → i ≤ j → j < s.mem.len .bot → (isPopF s.opc = true → j + 1 < s.mem.len .bot) →
    s.mem.val .bot i ≤ s.mem.val .bot j
  pF : isPopF s.opc = true → 2 ≤ s.mem.len .bot ∧
    s.mem.val .bot (s.mem.len .bot - 1) = s.mem.val .bot (s.mem.len .bot - 2) - 1
  sct : tp s ≤ s.mem.sc .top + 1 ∨ tp s ≤ s.otv.cur .top + 1
  p3 : isPop3 s.opc = true → s.mem.sc .bot + 1 = s.mem.len .bot ∧ (lastB s < tp s → lastB s ≤ s.otv.cur .top)

def ID (s : St ι) : Prop := ∀ i, Th (tp s) (s.mem.sc .top) (s.mem.len .bot) (s.mem.val .bot) (undecided s.opc) (isPop3 s.opc)
  (s.otv.cur .top) ((s.ttv i).cur .bot) ((s.ttv i).cur .top) (s.tpc i)

theorem IC.init (junk : Nat → Nat → Int) : IC (St.init junk : St ι) := by
  constructor <;> simp [St.init, Mem.init, TV.init, tp, isPopF, isPop3]

theorem ID.init (junk : Nat → Nat → Int) : ID (St.init junk : St ι) := by
  intro i; simp [St.init, Th]

theorem mon_store {n scb : Nat} {v v' : Nat → Int} {x : Int} {q : Bool} (hn : 0 < n)
    (mon : ∀ i j, scb ≤ i → i ≤ j → j < n → v i ≤ v j) (hv : ∀ k, k < n → v' k = v k) (hvn : v' n = x)
    (hx : q = false → v (n - 1) ≤ x) :
    ∀ i j, scb ≤ i → i ≤ j → j < n + 1 → (q = true → j + 1 < n + 1) → v' i ≤ v' j := by
  intro i j h1 h2 h3 h4
  by_cases hj : j = n
  · subst hj
    by_cases hi : i = j
    · subst hi; exact Int.le_refl _
    · have := mon i (j - 1) h1 (by omega) (by omega)
      rw [hv i (by omega), hvn]
      have := hx (by cases q <;> simp at *)
      omega
  · rw [hv i (by omega), hv j (by omega)]
    exact mon i j h1 h2 (by omega)

end Verif.Weak
