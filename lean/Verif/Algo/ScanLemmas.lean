import Verif.Algo.ScanFoot

/-! Correctness of the two sweeps of `scan`. -/
namespace Verif.Algo
variable {V E : Type}

theorem run_frame {p : Prog V E} {m o m'} (h : Run p m o m') : ∀ l, ¬ Writes p l → m' l = m l := by
  induction h with
  | halt => exact fun _ _ => rfl
  | atomOk _ => intro l hl; simp only [Writes] at hl; simp [upd, hl]
  | atomErr _ => exact fun _ _ => rfl
  | seqOk _ _ ih1 ih2 => intro l hl; rw [ih2 l (fun h => hl (.inr h)), ih1 l (fun h => hl (.inl h))]
  | seqAbort _ _ ih => exact fun l hl => ih l (fun h => hl (.inl h))
  | par _ _ _ ih1 ih2 => intro l hl; rw [ih2 l (fun h => hl (.inr h)), ih1 l (fun h => hl (.inl h))]

theorem Foot.keep {p : Prog V E} {path W R} (hf : Foot p path W R) {m o m'} (h : Run p m o m') {c : Nat} (hc : ¬ W c) :
    m' (.cell c) = m (.cell c) := by
  apply run_frame h
  intro hw
  rcases hf.writes _ hw with ⟨c', h, h'⟩ | ⟨_, _, h⟩
  · cases h; exact hc h'
  · cases h

section
variable (op : V → V → V) (x : Nat → V)

/-- `x a ∘ x (a+1) ∘ … ∘ x (a+k)`, from the left. -/
def G (a : Nat) : Nat → V
  | 0 => x a
  | k + 1 => op (G a k) (x (a + k + 1))

variable (assoc : ∀ a b c, op (op a b) c = op a (op b c))
include assoc

theorem G_append (a j k : Nat) : op (G op x a j) (G op x (a + j + 1) k) = G op x a (j + k + 1) := by
  induction k with
  | zero => rfl
  | succ k ih =>
    have : j + (k + 1) + 1 = (j + k + 1) + 1 := by omega
    rw [this]
    simp only [G]
    rw [← assoc, ih]
    congr 2
    omega

end

theorem run_atom1 {w a : Loc} {f : V → V} {m o m'} (h : Run (.atom1 w a (fun v => .ok (f v)) : Prog V E) m o m') :
    o = .ok ∧ m' = upd m w (f (m a)) := by
  cases h with
  | atomOk h => cases h; exact ⟨rfl, rfl⟩
  | atomErr h => cases h

theorem run_copy {w a : Loc} {m o m'} (h : Run (.atom1 w a .ok : Prog V E) m o m') :
    o = .ok ∧ m' = upd m w (m a) := by
  cases h with
  | atomOk h => cases h; exact ⟨rfl, rfl⟩
  | atomErr h => cases h

theorem run_atom2 {w a b : Loc} {f : V → V → V} {m o m'}
    (h : Run (.atom2 w a b (fun u v => .ok (f u v)) : Prog V E) m o m') :
    o = .ok ∧ m' = upd m w (f (m a) (m b)) := by
  cases h with
  | atomOk h => cases h; exact ⟨rfl, rfl⟩
  | atomErr h => cases h

theorem run_seq {p q : Prog V E} {m o m'} (h : Run (.seq p q) m o m') (hp : ∀ o m1, Run p m o m1 → o = .ok) :
    ∃ m1, Run p m .ok m1 ∧ Run q m1 o m' := by
  cases h with
  | seqOk h1 h2 => exact ⟨_, h1, h2⟩
  | seqAbort h1 ho => exact absurd (hp _ _ h1) ho

theorem run_par {p q : Prog V E} {m o m'} (h : Run (.par p q) m o m') (hp : ∀ o m1, Run p m o m1 → o = .ok)
    (hq : ∀ o m1 m2, Run p m .ok m1 → Run q m1 o m2 → o = .ok) :
    o = .ok ∧ ∃ m1, Run p m .ok m1 ∧ Run q m1 .ok m' := by
  cases h with
  | par h1 h2 hj =>
    have := hp _ _ h1
    subst this
    have := hq _ _ _ h1 h2
    subst this
    cases hj
    exact ⟨rfl, _, h1, h2⟩

section
variable (pr : V → V) (op : V → V → V) (src dst len : Nat) (m0 : Mem Loc V)

/-- The projected inputs. -/
abbrev X (i : Nat) : V := pr (m0 (.cell (src + i)))
/-- The inclusive scan. -/
abbrev P (i : Nat) : V := G op (X pr src m0) 0 i

/-- The inputs `[lo, hi)` have not been overwritten. -/
def SrcOK (m : Mem Loc V) (lo hi : Nat) : Prop := ∀ i, lo ≤ i → i < hi → m (.cell (src + i)) = m0 (.cell (src + i))
/-- The outputs `[lo, hi)` are final. -/
def Scanned (m : Mem Loc V) (lo hi : Nat) : Prop := ∀ i, lo ≤ i → i < hi → m (.cell (dst + i)) = P pr op src m0 i

/-- The node has been reduced, not scanned. -/
inductive Ready (n : Nat) : Ival → Nat → Nat → Mem Loc V → Prop where
  | leaf {iv a k m} : k ≤ n → SrcOK src m0 m a (a + k - iv.excl) → Ready n iv a k m
  | node {iv a k m} : n < k → m (.cell (dst + (a + k / 2 - 1))) = G op (X pr src m0) a (k / 2 - 1) →
      Ready n .mid a (k / 2) m → Ready n iv (a + k / 2) (k - k / 2) m → Ready n iv a k m

/-- The node is scanned up to `se`, reduced after it. -/
inductive Part (n : Nat) : Ival → Nat → Nat → Nat → Mem Loc V → Prop where
  | left {iv a k se m} : n < k → se < a + k / 2 → Part n iv.l a (k / 2) se m →
      m (.cell (dst + (a + k / 2 - 1))) = P pr op src m0 (a + k / 2 - 1) →
      Ready pr op src dst m0 n iv.r (a + k / 2) (k - k / 2) m → Part n iv a k se m
  | at {iv a k se m} : n < k → se = a + k / 2 → Scanned pr op src dst m0 m a (a + k / 2) →
      Ready pr op src dst m0 n iv.r (a + k / 2) (k - k / 2) m → Part n iv a k se m
  | right {iv a k se m} : n < k → a + k / 2 < se → Scanned pr op src dst m0 m a (a + k / 2) →
      Part n iv.r (a + k / 2) (k - k / 2) se m → Part n iv a k se m
end

section
variable {pr : V → V} {op : V → V → V} {src dst len : Nat} {m0 : Mem Loc V}

theorem SrcOK.congr {m m' : Mem Loc V} {lo hi} (h : SrcOK src m0 m lo hi)
    (hag : ∀ i, lo ≤ i → i < hi → m' (.cell (src + i)) = m (.cell (src + i))) : SrcOK src m0 m' lo hi :=
  fun i h1 h2 => (hag i h1 h2).trans (h i h1 h2)

theorem Scanned.congr {m m' : Mem Loc V} {lo hi} (h : Scanned pr op src dst m0 m lo hi)
    (hag : ∀ i, lo ≤ i → i < hi → m' (.cell (dst + i)) = m (.cell (dst + i))) : Scanned pr op src dst m0 m' lo hi :=
  fun i h1 h2 => (hag i h1 h2).trans (h i h1 h2)

theorem Ready.congr {n iv a k} {m m' : Mem Loc V} (hn : 0 < n) (h : Ready pr op src dst m0 n iv a k m)
    (hs : ∀ i, a ≤ i → i < a + k - iv.excl → m' (.cell (src + i)) = m (.cell (src + i)))
    (hd : ∀ i, a ≤ i → i < a + k - iv.excl → m' (.cell (dst + i)) = m (.cell (dst + i))) :
    Ready pr op src dst m0 n iv a k m' := by
  induction h with
  | leaf h1 h2 => exact .leaf h1 (h2.congr hs)
  | @node iv a k m h1 h2 h3 h4 ih1 ih2 =>
    have hex : iv.excl ≤ 1 := by cases iv <;> simp [Ival.excl]
    have e1 : Ival.excl .mid = 1 := rfl
    refine .node h1 ?_ (ih1 ?_ ?_) (ih2 ?_ ?_)
    · rw [← h2]; exact hd _ (by omega) (by omega)
    · intro i _ _; exact hs i (by omega) (by omega)
    · intro i _ _; exact hd i (by omega) (by omega)
    · intro i _ _; exact hs i (by omega) (by omega)
    · intro i _ _; exact hd i (by omega) (by omega)

theorem Part.congr {n iv a k se} {m m' : Mem Loc V} (hn : 0 < n) (h : Part pr op src dst m0 n iv a k se m)
    (hs : ∀ i, a ≤ i → i < a + k - iv.excl → m' (.cell (src + i)) = m (.cell (src + i)))
    (hd : ∀ i, a ≤ i → i < a + k - iv.excl → m' (.cell (dst + i)) = m (.cell (dst + i))) :
    Part pr op src dst m0 n iv a k se m' := by
  induction h with
  | @left iv a k se m h1 h2 h3 h4 h5 ih =>
    have hex : iv.excl ≤ 1 := by cases iv <;> simp [Ival.excl]
    have el : iv.l.excl = 1 := by cases iv <;> rfl
    have er : iv.r.excl = iv.excl := by cases iv <;> rfl
    refine .left h1 h2 (ih ?_ ?_) ?_ (h5.congr hn ?_ ?_)
    · intro i _ _; exact hs i (by omega) (by omega)
    · intro i _ _; exact hd i (by omega) (by omega)
    · rw [← h4]; exact hd _ (by omega) (by omega)
    · intro i _ _; exact hs i (by omega) (by omega)
    · intro i _ _; exact hd i (by omega) (by omega)
  | @«at» iv a k se m h1 h2 h3 h4 =>
    have hex : iv.excl ≤ 1 := by cases iv <;> simp [Ival.excl]
    have er : iv.r.excl = iv.excl := by cases iv <;> rfl
    refine .at h1 h2 (h3.congr ?_) (h4.congr hn ?_ ?_)
    · intro i _ _; exact hd i (by omega) (by omega)
    · intro i _ _; exact hs i (by omega) (by omega)
    · intro i _ _; exact hd i (by omega) (by omega)
  | @right iv a k se m h1 h2 h3 h4 ih =>
    have hex : iv.excl ≤ 1 := by cases iv <;> simp [Ival.excl]
    have er : iv.r.excl = iv.excl := by cases iv <;> rfl
    refine .right h1 h2 (h3.congr ?_) (ih ?_ ?_)
    · intro i _ _; exact hd i (by omega) (by omega)
    · intro i _ _; exact hs i (by omega) (by omega)
    · intro i _ _; exact hd i (by omega) (by omega)

/-- The accumulation loop of a leaf. -/
theorem scanLoop_post (hal : ∀ i < len, ∀ j < len, src + i = dst + j → i = j) (path : List Bool) (b k : Nat)
    (hb : 0 < b) (hbk : b + k ≤ len) {m o m'} (hacc : m (.tmp path 0) = P pr op src m0 (b - 1))
    (hs : SrcOK src m0 m b (b + k))
    (h : Run (scanLoop (E := E) pr op (.tmp path 0) (src + b) (dst + b) k) m o m') :
    o = .ok ∧ Scanned pr op src dst m0 m' b (b + k) := by
  induction k generalizing b m o m' with
  | zero => cases h; exact ⟨rfl, fun i _ _ => by omega⟩
  | succ k ih =>
    obtain ⟨m1, h1, h⟩ := run_seq h (fun o m1 h => (run_atom2 h).1)
    obtain ⟨m2, h2, h⟩ := run_seq h (fun o m1 h => (run_copy h).1)
    have h1 := (run_atom2 h1).2
    have h2 := (run_copy h2).2
    have hv : m1 (.tmp path 0) = P pr op src m0 b := by
      rw [h1]; simp only [upd, if_true]
      rw [hacc, hs b (by omega) (by omega)]
      obtain ⟨b', rfl⟩ : ∃ b', b = b' + 1 := ⟨b - 1, by omega⟩
      simp [P, G, X]
    obtain ⟨ho, hsc⟩ := ih (b + 1) (by omega) (by omega) (m := m2) (by
        rw [h2]; simp [upd, hv]) (by
        intro i h3 h4
        rw [h2, h1]; simp only [upd]
        rw [if_neg, if_neg (by simp)]
        · exact hs i (by omega) (by omega)
        · intro heq; injection heq with heq
          have := hal i (by omega) b (by omega) heq; omega) (by simpa [Nat.add_assoc] using h)
    refine ⟨ho, fun i h3 h4 => ?_⟩
    by_cases hi : i = b
    · subst hi
      have hk : m' (.cell (dst + i)) = m2 (.cell (dst + i)) := 
        (scanLoop_foot pr op path _ _ _).keep h (by omega)
      rw [hk, h2]; simp [upd, hv]
    · exact hsc i (by omega) (by omega)

theorem foldLoop_post' (path : List Bool) (a j k : Nat) {m o m'}
    (hacc : m (.tmp path 0) = G op (X pr src m0) a j)
    (hs : SrcOK src m0 m (a + j + 1) (a + j + 1 + k))
    (h : Run (foldLoop (E := E) (fun v => .ok (pr v)) (fun a b => .ok (op a b)) (.tmp path 0) (src + a + j + 1) k) m o m') :
    o = .ok ∧ m' (.tmp path 0) = G op (X pr src m0) a (j + k) := by
  induction k generalizing j m o m' with
  | zero => cases h; exact ⟨rfl, hacc⟩
  | succ k ih =>
    obtain ⟨m1, h1, h⟩ := run_seq h (fun o m1 h => (run_atom2 (f := fun a x => op a (pr x)) h).1)
    have h1 := (run_atom2 (f := fun a x => op a (pr x)) h1).2
    have := ih (j + 1) (m := m1) (by
      rw [h1]; simp only [upd, if_true, hacc, G]
      have := hs (a + j + 1) (by omega) (by omega)
      rw [← Nat.add_assoc, ← Nat.add_assoc] at this
      rw [this]; simp only [X, Nat.add_assoc]) (by
      intro i h3 h4
      rw [h1]; simp only [upd]
      rw [if_neg (by simp)]
      exact hs i (by omega) (by omega)) (by simpa [Nat.add_assoc] using h)
    rwa [show j + 1 + k = j + (k + 1) by omega] at this

variable (assoc : ∀ a b c, op (op a b) c = op a (op b c))
  (hal : ∀ i < len, ∀ j < len, src + i = dst + j → i = j)
include assoc hal

/-- The up-sweep in fold mode. -/
theorem riseFold_post (rdy : List Bool → Bool) (n : Nat) (hn : 0 < n) (iv : Ival) (hiv : iv = .mid ∨ iv = .rhs)
    (path : List Bool) (a k : Nat) (hk0 : 0 < k) (hk : a + k ≤ len) (ha : 0 < a) {m o m'}
    (hs : SrcOK src m0 m a (a + k))
    (h : Run (riseP (E := E) pr op rdy n .fold iv path (src + a) k (dst + a)) m o m') :
    o = .ok ∧ Ready pr op src dst m0 n iv a k m' ∧
      (iv = .mid → m' (.cell (dst + (a + k - 1))) = G op (X pr src m0) a (k - 1)) := by
  induction k using Nat.strongRecOn generalizing iv path a m o m' with
  | ind k ih =>
    rw [riseP, if_neg (by omega)] at h
    split at h
    · rename_i hkn
      rcases hiv with rfl | rfl
      · simp only [riseLeaf] at h
        obtain ⟨m1, h1, h⟩ := run_seq h (fun o m1 h => (run_atom1 h).1)
        have h1 := (run_atom1 h1).2
        have hs1 : SrcOK src m0 m1 a (a + k) := hs.congr (fun i _ _ => by rw [h1]; simp [upd])
        have hl := fun o m2 hr => foldLoop_post' (E := E) (pr := pr) (op := op) (m0 := m0) (src := src) path a 0 (k - 1) (m := m1) (o := o) (m' := m2)
          (by rw [h1]; simp only [upd, if_true]; rw [hs a (by omega) (by omega)]; rfl)
          (fun i _ _ => hs1 i (by omega) (by omega)) hr
        obtain ⟨m2, h2, h⟩ := run_seq h (fun o m2 hr => (hl o m2 hr).1)
        have hv := (hl _ _ h2).2
        obtain ⟨ho, h3⟩ := run_copy h
        have hk2 : ∀ c, m2 (.cell c) = m1 (.cell c) := fun c =>
          (foldLoop_foot' (W := fun _ => False) path _ _ _ _).keep h2 (fun h => h)
        refine ⟨ho, .leaf hkn ?_, fun _ => ?_⟩
        · intro i h4 h5
          have e1 : Ival.excl .mid = 1 := rfl
          rw [← hs1 i h4 (by omega), h3]; simp only [upd]
          rw [if_neg, hk2]
          intro heq; injection heq with heq
          have := hal i (by omega) (a + k - 1) (by omega) (by omega)
          omega
        · rw [h3, show dst + (a + k - 1) = dst + a + k - 1 by omega]; simp only [upd, if_true, hv]
          congr 1; omega
      · simp only [riseLeaf] at h
        cases h
        exact ⟨rfl, .leaf hkn (fun i _ _ => hs i (by omega) (by simp only [Ival.excl] at *; omega)), fun h => by cases h⟩
    · rename_i hkn
      rw [if_neg (by omega)] at h
      have hl1 : iv.l = .mid := by rcases hiv with rfl | rfl <;> rfl
      have hr1 : iv.r = iv := by rcases hiv with rfl | rfl <;> rfl
      have hhl : iv.hasLeft = true := by rcases hiv with rfl | rfl <;> rfl
      simp only [hl1, hr1] at h
      have fl := riseP_foot (E := E) pr op hal rdy n .fold .mid (false :: path) a (k / 2) (by omega) (fun _ => ha)
      have fr := riseP_foot (E := E) pr op hal rdy n .fold iv (true :: path) (a + k / 2) (k - k / 2) (by omega) (fun _ => by omega)
      have hL := fun o m1 (hr : Run _ m o m1) => ih (k / 2) (by omega) .mid (.inl rfl) (false :: path) a (by omega) (by omega) ha
        (o := o) (m' := m1) (fun i _ _ => hs i (by omega) (by omega)) hr
      have hR := fun o m1 m2 (h1 : Run (riseP (E := E) pr op rdy n .fold .mid (false :: path) (src + a) (k / 2) (dst + a)) m .ok m1) (hr : Run (riseP (E := E) pr op rdy n .fold iv (true :: path) (src + a + k / 2) (k - k / 2) (dst + a + k / 2)) m1 o m2) => @ih (k - k / 2) (by omega) iv hiv (true :: path) (a + k / 2) (by omega) (by omega) (by omega)
        m1 o m2 (fun i h2 h3 => by
          rw [fl.keep h1]
          · exact hs i (by omega) (by omega)
          · intro hw; have := hal i (by omega) (src + i - dst) (by omega) (by omega); omega)
          (by simpa only [Nat.add_assoc] using hr)
      obtain ⟨m2, hp, h⟩ := run_seq h (fun o m1 h => (run_par h (fun o m1 h => (hL o m1 h).1) (fun o m1 m2 h1 h2 => (hR o m1 m2 h1 h2).1)).1)
      obtain ⟨-, m1, h1, h2⟩ := run_par hp (fun o m1 h => (hL o m1 h).1) (fun o m1 m2 h1 h2 => (hR o m1 m2 h1 h2).1)
      obtain ⟨-, hRl, hvl⟩ := hL _ _ h1
      obtain ⟨-, hRr, hvr⟩ := hR _ _ _ h1 h2
      have h2' : Run (riseP (E := E) pr op rdy n .fold iv (true :: path) (src + (a + k / 2)) (k - k / 2) (dst + (a + k / 2))) m1 .ok m2 := by
        simpa only [Nat.add_assoc] using h2
      have hvl2 : m2 (.cell (dst + (a + k / 2 - 1))) = G op (X pr src m0) a (k / 2 - 1) := by
        rw [fr.keep h2' (by omega)]; exact hvl rfl
      have hRl2 : Ready pr op src dst m0 n .mid a (k / 2) m2 := by
        refine hRl.congr hn (fun i h3 h4 => fr.keep h2' ?_) (fun i h3 h4 => fr.keep h2' ?_)
        · intro hw; simp only [Ival.excl] at h4; have := hal i (by omega) (src + i - dst) (by omega) (by omega); omega
        · simp only [Ival.excl] at h4; omega
      have hN : Ready pr op src dst m0 n iv a k m2 := .node (by omega) hvl2 hRl2 hRr
      rcases hiv with rfl | rfl
      · simp only [or_true, if_true] at h
        obtain ⟨ho, h3⟩ := run_atom2 h
        have e1 : Ival.excl .mid = 1 := rfl
        refine ⟨ho, hN.congr hn (fun i h4 h5 => ?_) (fun i h4 h5 => ?_), fun _ => ?_⟩
        · rw [h3]; simp only [upd]; rw [if_neg]
          intro heq; injection heq with heq
          have := hal i (by omega) (a + k - 1) (by omega) (by omega); omega
        · rw [h3]; simp only [upd]; rw [if_neg]
          intro heq; injection heq with heq
          omega
        · rw [h3, show dst + (a + k - 1) = dst + a + k - 1 by omega]; simp only [upd, if_true]
          rw [show dst + a + k / 2 - 1 = dst + (a + k / 2 - 1) by omega, hvl2]
          have := hvr rfl
          rw [show dst + (a + k / 2 + (k - k / 2) - 1) = dst + a + k - 1 by omega] at this
          rw [this]
          have := G_append op (X pr src m0) assoc a (k / 2 - 1) (k - k / 2 - 1)
          rw [show a + (k / 2 - 1) + 1 = a + k / 2 by omega] at this
          rw [this]; congr 1; omega
      · simp only [reduceCtorEq, or_self, if_false] at h
        cases h
        exact ⟨rfl, hN, fun h => by cases h⟩

set_option maxHeartbeats 1000000 in
/-- The up-sweep in scan mode. -/
theorem riseScan_post (rdy : List Bool → Bool) (n : Nat) (hn : 0 < n) (iv : Ival)
    (path : List Bool) (a k : Nat) (hk0 : 0 < k) (hk : a + k ≤ len) (ha : iv.hasLeft = true → 0 < a)
    (ha0 : iv.hasLeft = false → a = 0) {m o m'}
    (hs : SrcOK src m0 m a (a + k)) (hp : iv.hasLeft = true → m (.cell (dst + (a - 1))) = P pr op src m0 (a - 1))
    (h : Run (riseP (E := E) pr op rdy n .scan iv path (src + a) k (dst + a)) m o m') :
    o = .ok ∧ ∃ se, riseEnd rdy n path (src + a) k = src + se ∧ a < se ∧ se ≤ a + k ∧
      (se = a + k → Scanned pr op src dst m0 m' a (a + k)) ∧
      (se < a + k → Part pr op src dst m0 n iv a k se m' ∧
        (iv.excl = 1 → m' (.cell (dst + (a + k - 1))) = P pr op src m0 (a + k - 1))) := by
  induction k using Nat.strongRecOn generalizing iv path a m o m' with
  | ind k ih =>
    rw [riseP, if_neg (by omega)] at h
    rw [riseEnd]
    split at h
    · rename_i hkn
      suffices hsuf : o = .ok ∧ Scanned pr op src dst m0 m' a (a + k) by
        refine ⟨hsuf.1, a + k, ?_, by omega, by omega, fun _ => hsuf.2, fun h => by omega⟩
        rw [if_pos hkn]; omega
      cases hh : iv.hasLeft with
      | true =>
        have := ha hh
        have h' : Run (.seq (.atom1 (.tmp path 0) (.cell (dst + a - 1)) .ok) (scanLoop (E := E) pr op (.tmp path 0) (src + a) (dst + a) k)) m o m' := by
          cases iv <;> first | exact h | cases hh
        obtain ⟨m1, h1, h⟩ := run_seq h' (fun o m1 h => (run_copy h).1)
        have h1 := (run_copy h1).2
        refine scanLoop_post hal path a k this hk (m := m1) ?_ ?_ h
        · rw [h1]; simp only [upd, if_true]; rw [← hp hh]; congr 2; omega
        · exact hs.congr (fun i _ _ => by rw [h1]; simp [upd])
      | false =>
        have := ha0 hh
        subst this
        have h' : Run (.seq (.atom1 (.tmp path 0) (.cell (src + 0)) (fun v => .ok (pr v)))
            (.seq (.atom1 (.cell (dst + 0)) (.tmp path 0) .ok)
            (scanLoop (E := E) pr op (.tmp path 0) (src + 0 + 1) (dst + 0 + 1) (k - 1)))) m o m' := by
          cases iv <;> first | exact h | cases hh
        obtain ⟨m1, h1, h⟩ := run_seq h' (fun o m1 h => (run_atom1 h).1)
        obtain ⟨m2, h2, h⟩ := run_seq h (fun o m1 h => (run_copy h).1)
        have h1 := (run_atom1 h1).2
        have h2 := (run_copy h2).2
        have hv : m1 (.tmp path 0) = P pr op src m0 0 := by
          rw [h1]; simp only [upd, if_true]; rw [hs 0 (by omega) (by omega)]; rfl
        obtain ⟨ho, hsc⟩ := scanLoop_post (E := E) (pr := pr) (op := op) (m0 := m0) hal path 1 (k - 1) (by omega) (by omega)
          (m := m2) (by rw [h2]; simp [upd, hv]) (by
            intro i h3 h4
            rw [h2, h1]; simp only [upd]; rw [if_neg, if_neg (by simp)]
            · exact hs i (by omega) (by omega)
            · intro heq; injection heq with heq
              have := hal i (by omega) 0 (by omega) (by omega); omega) h
        refine ⟨ho, fun i h3 h4 => ?_⟩
        by_cases hi : i = 0
        · subst hi
          rw [(scanLoop_foot pr op path _ _ _).keep h (by omega), h2]; simp [upd, hv]
        · exact hsc i (by omega) (by omega)
    · rename_i hkn
      rw [if_neg (by omega)] at h
      rw [if_neg hkn, if_neg (by omega)]
      have hr1 : iv.r = .mid ∨ iv.r = .rhs := by cases iv <;> simp [Ival.r]
      have hrh : iv.r.hasLeft = true := by cases iv <;> rfl
      have hlh : iv.l.hasLeft = iv.hasLeft := by cases iv <;> rfl
      have el : iv.l.excl = 1 := by cases iv <;> rfl
      have er : iv.r.excl = iv.excl := by cases iv <;> rfl
      have fl := riseP_foot (E := E) pr op hal rdy n .scan iv.l (false :: path) a (k / 2) (by omega) (fun h => ha (hlh ▸ h))
      have fr := fun o => riseP_foot (E := E) pr op hal rdy n o iv.r (true :: path) (a + k / 2) (k - k / 2) (by omega) (fun _ => by omega)
      have hL := fun o m1 (hr : Run _ m o m1) => ih (k / 2) (by omega) iv.l (false :: path) a (by omega) (by omega) (fun h => ha (hlh ▸ h))
        (fun h => ha0 (hlh ▸ h)) (o := o) (m' := m1) (fun i _ _ => hs i (by omega) (by omega)) (fun h => hp (hlh ▸ h)) hr
      have hsR : ∀ m1, Run (riseP (E := E) pr op rdy n .scan iv.l (false :: path) (src + a) (k / 2) (dst + a)) m .ok m1 →
          SrcOK src m0 m1 (a + k / 2) (a + k / 2 + (k - k / 2)) := fun m1 h1 i h2 h3 => by
        rw [fl.keep h1]
        · exact hs i (by omega) (by omega)
        · intro hw; have := hal i (by omega) (src + i - dst) (by omega) (by omega); omega
      dsimp only at h ⊢
      have hRF := fun o m1 m2 (h1 : Run (riseP (E := E) pr op rdy n .scan iv.l (false :: path) (src + a) (k / 2) (dst + a)) m .ok m1) (hr : Run (riseP (E := E) pr op rdy n .fold iv.r (true :: path) (src + a + k / 2) (k - k / 2) (dst + a + k / 2)) m1 o m2) => riseFold_post (E := E) (pr := pr) (op := op) (m0 := m0) assoc hal rdy n hn iv.r hr1 (true :: path) (a + k / 2) (k - k / 2) (by omega) (by omega) (by omega)
        (m := m1) (o := o) (m' := m2) (hsR m1 h1) (by simpa only [Nat.add_assoc] using hr)
      -- the non-fused case
      have hsplit : ∀ m1 m2 : Mem Loc V, Run (riseP (E := E) pr op rdy n .scan iv.l (false :: path) (src + a) (k / 2) (dst + a)) m .ok m1 →
          Run (riseP (E := E) pr op rdy n .fold iv.r (true :: path) (src + a + k / 2) (k - k / 2) (dst + a + k / 2)) m1 .ok m2 →
          Run (if iv = Ival.lhs ∨ iv = Ival.mid then
            (Cmd.atom2 (Loc.cell (dst + a + k - 1)) (Loc.cell (dst + a + k / 2 - 1)) (Loc.cell (dst + a + k - 1))
              fun a b => Except.ok (op a b) : Prog V E)
          else Cmd.halt Out.ok) m2 o m' →
          o = .ok ∧ ∃ se, riseEnd rdy n (false :: path) (src + a) (k / 2) = src + se ∧ a < se ∧ se ≤ a + k ∧
            (se = a + k → Scanned pr op src dst m0 m' a (a + k)) ∧
            (se < a + k → Part pr op src dst m0 n iv a k se m' ∧
              (iv.excl = 1 → m' (.cell (dst + (a + k - 1))) = P pr op src m0 (a + k - 1))) := by
        intro m1 m2 h1 h2 h3
        obtain ⟨-, se, e1, e2, e3, e4, e5⟩ := hL _ _ h1
        obtain ⟨-, hRr, hvr⟩ := hRF _ _ _ h1 h2
        have h2' : Run (riseP (E := E) pr op rdy n .fold iv.r (true :: path) (src + (a + k / 2)) (k - k / 2) (dst + (a + k / 2))) m1 .ok m2 := by
          simpa only [Nat.add_assoc] using h2
        have hlast : m2 (.cell (dst + (a + k / 2 - 1))) = P pr op src m0 (a + k / 2 - 1) := by
          rw [(fr .fold).keep h2' (by omega)]
          rcases Nat.lt_or_ge se (a + k / 2) with hlt | hge
          · exact (e5 hlt).2 el
          · exact e4 (by omega) _ (by omega) (by omega)
        have hpart : Part pr op src dst m0 n iv a k se m2 := by
          rcases Nat.lt_or_ge se (a + k / 2) with hlt | hge
          · refine .left (by omega) hlt ((e5 hlt).1.congr hn (fun i h3 h4 => ?_) (fun i h3 h4 => ?_)) hlast hRr
            · refine (fr .fold).keep h2' ?_
              intro hw; have := hal i (by omega) (src + i - dst) (by omega) (by omega); omega
            · exact (fr .fold).keep h2' (by omega)
          · refine .at (by omega) (by omega) ((e4 (by omega)).congr (fun i h3 h4 => ?_)) hRr
            exact (fr .fold).keep h2' (by omega)
        by_cases hc : iv = .lhs ∨ iv = .mid
        · rw [if_pos hc] at h3
          obtain ⟨ho, h3⟩ := run_atom2 h3
          have ex : iv.excl = 1 := by rcases hc with rfl | rfl <;> rfl
          have hm : iv.r = .mid := by rcases hc with rfl | rfl <;> rfl
          refine ⟨ho, se, e1, e2, by omega, fun h => by omega, fun _ => ⟨hpart.congr hn (fun i h4 h5 => ?_) (fun i h4 h5 => ?_), fun _ => ?_⟩⟩
          · rw [h3]; simp only [upd]; rw [if_neg]
            intro heq; injection heq with heq
            have := hal i (by omega) (a + k - 1) (by omega) (by omega); omega
          · rw [h3]; simp only [upd]; rw [if_neg]
            intro heq; injection heq with heq
            omega
          · rw [h3, show dst + (a + k - 1) = dst + a + k - 1 by omega]; simp only [upd, if_true]
            rw [show dst + a + k / 2 - 1 = dst + (a + k / 2 - 1) by omega, hlast]
            have := hvr hm
            rw [show dst + (a + k / 2 + (k - k / 2) - 1) = dst + a + k - 1 by omega] at this
            rw [this]
            have := G_append op (X pr src m0) assoc 0 (a + k / 2 - 1) (k - k / 2 - 1)
            rw [show 0 + (a + k / 2 - 1) + 1 = a + k / 2 by omega] at this
            rw [this]; congr 1; omega
        · rw [if_neg hc] at h3
          cases h3
          refine ⟨rfl, se, e1, e2, by omega, fun h => by omega, fun _ => ⟨hpart, fun h => ?_⟩⟩
          cases iv <;> simp_all [Ival.excl]
      by_cases hf : rdy path = true ∧ riseEnd rdy n (false :: path) (src + a) (k / 2) = src + a + k / 2
      · rw [if_pos hf] at h ⊢
        obtain ⟨m1, h1, h⟩ := run_seq h (fun o m1 h => (hL o m1 h).1)
        obtain ⟨-, se, e1, e2, e3, e4, e5⟩ := hL _ _ h1
        have hse : se = a + k / 2 := by omega
        have hsc := e4 hse
        have h' : Run (riseP (E := E) pr op rdy n .scan iv.r (true :: path) (src + (a + k / 2)) (k - k / 2) (dst + (a + k / 2))) m1 o m' := by
          simpa only [Nat.add_assoc] using h
        obtain ⟨ho, se', f1, f2, f3, f4, f5⟩ := ih (k - k / 2) (by omega) iv.r (true :: path) (a + k / 2) (by omega) (by omega) (fun _ => by omega)
          (fun h => by rw [hrh] at h; cases h) (hsR m1 h1) (fun _ => hsc _ (by omega) (by omega)) h'
        have hsc' : Scanned pr op src dst m0 m' a (a + k / 2) := hsc.congr (fun i _ _ => (fr .scan).keep h' (by omega))
        refine ⟨ho, se', by rw [← f1]; congr 1; omega, by omega, by omega, fun hx => ?_, fun hx => ⟨?_, fun hy => ?_⟩⟩
        · intro i h3 h4
          by_cases hi : i < a + k / 2
          · exact hsc' i h3 hi
          · exact f4 (by omega) i (by omega) (by omega)
        · exact .right (by omega) f2 hsc' (f5 (by omega)).1
        · have := (f5 (by omega)).2 (by omega)
          rwa [show a + k / 2 + (k - k / 2) - 1 = a + k - 1 by omega] at this
      · rw [if_neg hf] at h ⊢
        split at h
        · obtain ⟨m2, hp2, h⟩ := run_seq h (fun o m2 h => by
            obtain ⟨m1, h1, h⟩ := run_seq h (fun o m1 h => (hL o m1 h).1)
            exact (hRF _ _ _ h1 h).1)
          obtain ⟨m1, h1, h2⟩ := run_seq hp2 (fun o m1 h => (hL o m1 h).1)
          exact hsplit m1 m2 h1 h2 h
        · obtain ⟨m2, hp2, h⟩ := run_seq h (fun o m1 h => (run_par h (fun o m1 h => (hL o m1 h).1) (fun o m1 m2 h1 h2 => (hRF o m1 m2 h1 h2).1)).1)
          obtain ⟨-, m1, h1, h2⟩ := run_par hp2 (fun o m1 h => (hL o m1 h).1) (fun o m1 m2 h1 h2 => (hRF o m1 m2 h1 h2).1)
          exact hsplit m1 m2 h1 h2 h

/-- The down-sweep of a reduced node. -/
theorem fallImplP_post (n : Nat) (hn : 0 < n) (iv : Ival) (hiv : iv = .mid ∨ iv = .rhs)
    (path : List Bool) (a k : Nat) (hk0 : 0 < k) (hk : a + k ≤ len) (ha : 0 < a) {m o m'}
    (hp : m (.cell (dst + (a - 1))) = P pr op src m0 (a - 1)) (hr : Ready pr op src dst m0 n iv a k m)
    (hl : iv = .mid → m (.cell (dst + (a + k - 1))) = P pr op src m0 (a + k - 1))
    (h : Run (fallImplP (E := E) pr op n iv path (src + a) k (dst + a)) m o m') :
    o = .ok ∧ Scanned pr op src dst m0 m' a (a + k) := by
  induction k using Nat.strongRecOn generalizing iv path a m o m' with
  | ind k ih =>
    have foot := fallImplP_foot (E := E) pr op hal n iv path a k hk ha
    have h0 := h
    rw [fallImplP, if_neg (by rcases hiv with rfl | rfl <;> simp), if_neg (by omega)] at h
    split at h
    · rename_i hkn
      have hs : (if iv = Ival.rhs then k else k - 1) = k - iv.excl := by
        rcases hiv with rfl | rfl <;> simp [Ival.excl]
      rw [hs] at h
      obtain ⟨m1, h1, h⟩ := run_seq h (fun o m1 h => (run_copy h).1)
      have h1 := (run_copy h1).2
      cases hr with
      | node hx => omega
      | leaf _ hsrc =>
        have hex : iv.excl ≤ 1 := by cases iv <;> simp [Ival.excl]
        obtain ⟨ho, hsc⟩ := scanLoop_post (E := E) (pr := pr) (op := op) (m0 := m0) hal path a (k - iv.excl) ha (by omega) (m := m1)
          (by rw [h1]; simp only [upd, if_true]; rw [← hp]; congr 2; omega)
          (fun i h3 h4 => by rw [h1]; simp only [upd]; rw [if_neg (by simp)]; exact hsrc i h3 (by omega)) h
        refine ⟨ho, fun i h3 h4 => ?_⟩
        by_cases hi : i < a + (k - iv.excl)
        · exact hsc i h3 hi
        · have : iv.excl = 1 := by omega
          have hm : iv = .mid := by rcases hiv with rfl | rfl; rfl; cases this
          have := hl hm
          rw [show a + k - 1 = i by omega] at this
          rw [foot.keep h0 (by omega)]; exact this
    · rename_i hkn
      rw [if_neg (by omega)] at h
      cases hr with
      | leaf hx => omega
      | node _ hv hrl hrr =>
        have hl1 : iv.l = .mid := by rcases hiv with rfl | rfl <;> rfl
        have hr1 : iv.r = iv := by rcases hiv with rfl | rfl <;> rfl
        have hex : iv.excl ≤ 1 := by cases iv <;> simp [Ival.excl]
        have em : Ival.excl .mid = 1 := rfl
        dsimp only at h
        rw [hl1, hr1] at h
        obtain ⟨m1, h1, h⟩ := run_seq h (fun o m1 h => (run_atom2 h).1)
        have h1 := (run_atom2 h1).2
        have hkeep : ∀ c, c ≠ dst + a + k / 2 - 1 → m1 (.cell c) = m (.cell c) := fun c hc => by
          rw [h1]; simp [upd, hc]
        have hv1 : m1 (.cell (dst + (a + k / 2 - 1))) = P pr op src m0 (a + k / 2 - 1) := by
          rw [h1, show dst + (a + k / 2 - 1) = dst + a + k / 2 - 1 by omega]; simp only [upd, if_true]
          rw [show dst + a + k / 2 - 1 = dst + (a + k / 2 - 1) by omega, hv, show dst + a - 1 = dst + (a - 1) by omega, hp]
          have := G_append op (X pr src m0) assoc 0 (a - 1) (k / 2 - 1)
          rw [show 0 + (a - 1) + 1 = a by omega] at this
          rw [this]; congr 1; omega
        have hnal : ∀ i, i < len → i ≠ a + k / 2 - 1 → src + i ≠ dst + a + k / 2 - 1 := fun i h1 h2 h3 => by
          have := hal i h1 (a + k / 2 - 1) (by omega) (by omega); omega
        have hrl1 : Ready pr op src dst m0 n .mid a (k / 2) m1 :=
          hrl.congr hn (fun i h3 h4 => hkeep _ (hnal i (by omega) (by omega))) (fun i h3 h4 => hkeep _ (by omega))
        have hrr1 : Ready pr op src dst m0 n iv (a + k / 2) (k - k / 2) m1 :=
          hrr.congr hn (fun i h3 h4 => hkeep _ (hnal i (by omega) (by omega))) (fun i h3 h4 => hkeep _ (by omega))
        have fl := fallImplP_foot (E := E) pr op hal n .mid (false :: path) a (k / 2) (by omega) ha
        have fr := fallImplP_foot (E := E) pr op hal n iv (true :: path) (a + k / 2) (k - k / 2) (by omega) (by omega)
        have hL := fun o m2 (hr : Run _ m1 o m2) => ih (k / 2) (by omega) .mid (.inl rfl) (false :: path) a (by omega) (by omega) ha
          (o := o) (m' := m2) (by rw [hkeep _ (by omega)]; exact hp) hrl1 (fun _ => hv1) hr
        have hR := fun o m2 m3 (h1 : Run (fallImplP (E := E) pr op n .mid (false :: path) (src + a) (k / 2) (dst + a)) m1 .ok m2) (hr : Run (fallImplP (E := E) pr op n iv (true :: path) (src + a + k / 2) (k - k / 2) (dst + a + k / 2)) m2 o m3) => @ih (k - k / 2) (by omega) iv hiv (true :: path) (a + k / 2) (by omega) (by omega) (by omega)
          m2 o m3 (by rw [fl.keep h1 (by rw [em]; omega)]; exact hv1)
          (hrr1.congr hn (fun i h3 h4 => fl.keep h1 (fun hw => by
              have := hal i (by omega) (src + i - dst) (by omega) (by omega); omega))
            (fun i h3 h4 => fl.keep h1 (by omega)))
          (fun hm => by
            rw [fl.keep h1 (by omega), hkeep _ (by omega), show a + k / 2 + (k - k / 2) - 1 = a + k - 1 by omega]
            exact hl hm) (by simpa only [Nat.add_assoc] using hr)
        obtain ⟨ho, m2, h2, h3⟩ := run_par h (fun o m1 h => (hL o m1 h).1) (fun o m1 m2 h1 h2 => (hR o m1 m2 h1 h2).1)
        have sl := (hL _ _ h2).2
        have sr := (hR _ _ _ h2 h3).2
        have h3' : Run (fallImplP (E := E) pr op n iv (true :: path) (src + (a + k / 2)) (k - k / 2) (dst + (a + k / 2))) m2 .ok m' := by
          simpa only [Nat.add_assoc] using h3
        refine ⟨ho, fun i h4 h5 => ?_⟩
        by_cases hi : i < a + k / 2
        · rw [fr.keep h3' (by omega)]; exact sl i h4 hi
        · exact sr i (by omega) (by omega)

/-- The down-sweep of a partly scanned node. -/
theorem fallP_post (n : Nat) (hn : 0 < n) (iv : Ival) 
    (path : List Bool) (a k se : Nat) (hk : a + k ≤ len) (h1 : a < se) (h2 : se < a + k) {m o m'}
    (hp : Part pr op src dst m0 n iv a k se m)
    (hl : iv.excl = 1 → m (.cell (dst + (a + k - 1))) = P pr op src m0 (a + k - 1))
    (h : Run (fallP (E := E) pr op n iv path (src + a) k (dst + a) (src + se)) m o m') :
    o = .ok ∧ Scanned pr op src dst m0 m' a (a + k) := by
  induction k using Nat.strongRecOn generalizing iv path a m o m' with
  | ind k ih =>
    rw [fallP] at h
    have hex : iv.excl ≤ 1 := by cases iv <;> simp [Ival.excl]
    have el : iv.l.excl = 1 := by cases iv <;> rfl
    have er : iv.r.excl = iv.excl := by cases iv <;> rfl
    have hr1 : iv.r = .mid ∨ iv.r = .rhs := by cases iv <;> simp [Ival.r]
    have hrm : iv.r = .mid → iv.excl = 1 := by cases iv <;> simp [Ival.r, Ival.excl]
    have fr := fallImplP_foot (E := E) pr op hal n iv.r (true :: path) (a + k / 2) (k - k / 2) (by omega) (by omega)
    simp only [show src + se < src + a + k by omega, show k ≠ 0 by omega, dite_true, dite_false] at h
    have comb : ∀ {m1 m2 : Mem Loc V}, Scanned pr op src dst m0 m1 a (a + k / 2) →
        (∀ i, i < a + k / 2 → m2 (.cell (dst + i)) = m1 (.cell (dst + i))) →
        Scanned pr op src dst m0 m2 (a + k / 2) (a + k / 2 + (k - k / 2)) → Scanned pr op src dst m0 m2 a (a + k) := by
      intro m1 m2 s1 hk s2 i h4 h5
      by_cases hi : i < a + k / 2
      · rw [hk i hi]; exact s1 i h4 hi
      · exact s2 i (by omega) (by omega)
    cases hp with
    | left hnk hse hpl hv hrr =>
      rw [dif_pos (by omega)] at h
      have fl := fallP_foot (E := E) pr op hal n iv.l (false :: path) a (k / 2) se (by omega) h1 (by omega)
      have hL := fun o m2 (hr : Run _ m o m2) => ih (k / 2) (by omega) iv.l (false :: path) a (by omega) h1 (by omega)
        (o := o) (m' := m2) hpl (fun _ => hv) hr
      have hR := fun o m2 m3 (h1 : Run (fallP (E := E) pr op n iv.l (false :: path) (src + a) (k / 2) (dst + a) (src + se)) m .ok m2) (hr : Run (fallImplP (E := E) pr op n iv.r (true :: path) (src + a + k / 2) (k - k / 2) (dst + a + k / 2)) m2 o m3) => fallImplP_post (E := E) (pr := pr) (op := op) (m0 := m0) assoc hal n hn iv.r hr1 (true :: path) (a + k / 2) (k - k / 2) (by omega) (by omega) (by omega)
        (m := m2) (o := o) (m' := m3) (by rw [fl.keep h1 (by omega)]; exact hv)
        (hrr.congr hn (fun i h3 h4 => fl.keep h1 (fun hw => by
              have := hal i (by omega) (src + i - dst) (by omega) (by omega); omega))
            (fun i h3 h4 => fl.keep h1 (by omega)))
        (fun hm => by
            rw [fl.keep h1 (by omega), show a + k / 2 + (k - k / 2) - 1 = a + k - 1 by omega]
            exact hl (hrm hm)) (by simpa only [Nat.add_assoc] using hr)
      obtain ⟨ho, m2, h2, h3⟩ := run_par h (fun o m1 h => (hL o m1 h).1) (fun o m1 m2 h1 h2 => (hR o m1 m2 h1 h2).1)
      have h3' : Run (fallImplP (E := E) pr op n iv.r (true :: path) (src + (a + k / 2)) (k - k / 2) (dst + (a + k / 2))) m2 .ok m' := by
        simpa only [Nat.add_assoc] using h3
      exact ⟨ho, comb (hL _ _ h2).2 (fun i hi => fr.keep h3' (by omega)) (hR _ _ _ h2 h3).2⟩
    | «at» hnk hse hsc hrr =>
      rw [dif_neg (by omega), if_pos (by omega)] at h
      have h' : Run (fallImplP (E := E) pr op n iv.r (true :: path) (src + (a + k / 2)) (k - k / 2) (dst + (a + k / 2))) m o m' := by
        simpa only [Nat.add_assoc] using h
      obtain ⟨ho, s⟩ := fallImplP_post (E := E) (pr := pr) (op := op) (m0 := m0) assoc hal n hn iv.r hr1 (true :: path) (a + k / 2) (k - k / 2) (by omega) (by omega) (by omega)
        (hsc _ (by omega) (by omega)) hrr (fun hm => by
          rw [show a + k / 2 + (k - k / 2) - 1 = a + k - 1 by omega]; exact hl (hrm hm)) h'
      exact ⟨ho, comb hsc (fun i hi => fr.keep h' (by omega)) s⟩
    | right hnk hse hsc hpr =>
      rw [dif_neg (by omega), if_neg (by omega)] at h
      have h' : Run (fallP (E := E) pr op n iv.r (true :: path) (src + (a + k / 2)) (k - k / 2) (dst + (a + k / 2)) (src + se)) m o m' := by
        simpa only [Nat.add_assoc] using h
      have frr := fallP_foot (E := E) pr op hal n iv.r (true :: path) (a + k / 2) (k - k / 2) se (by omega) (by omega) (by omega)
      obtain ⟨ho, s⟩ := ih (k - k / 2) (by omega) iv.r (true :: path) (a + k / 2) (by omega) (by omega) (by omega) hpr (fun hx => by
          rw [show a + k / 2 + (k - k / 2) - 1 = a + k - 1 by omega]; exact hl (er ▸ hx)) h'
      exact ⟨ho, comb hsc (fun i hi => frr.keep h' (by omega)) s⟩

end
end Verif.Algo
