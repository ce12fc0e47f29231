import Verif.Weak.JoinModel
import Verif.Weak.Wf

/-! Invariants of the join under the C++ memory model. -/
namespace Verif.Weak.Join

theorem upd_same {α : Type} (f : Nat → α) (i : Nat) (x : α) : upd f i x i = x := by simp [upd]
theorem upd_ne {α : Type} (f : Nat → α) {i j : Nat} (x : α) (h : j ≠ i) : upd f i x j = f j := by simp [upd, h]

/-- The counters. -/
structure IA (s : St) : Prop where
  len : s.mem.len .join = s.base + 1 + s.fin.length + (if s.sub then 1 else 0)
  vals : s.sub = false → ∀ k, k ≤ s.fin.length → s.mem.val .join (s.base + k) = kMax - k
  lastv : s.sub = true → s.mem.val .join (s.mem.last .join) = (s.steals : Int) - s.fin.length
  cnt : s.steals = s.live.length + s.fin.length
  few : s.steals ≤ 65534
  nodup : s.live.Nodup
  live : ∀ i, i ∈ s.live ↔ s.cpc i = .run
  fins : ∀ i, i ∈ s.fin → s.cpc i = .last ∨ s.cpc i = .done
  last : ∀ i, s.cpc i = .last → s.fin.head? = some i ∧ s.ppc = .parked ∧ s.live = []
  nosub : s.ppc = .body ∨ s.ppc = .check ∨ s.ppc = .susp → s.sub = false
  sub : s.ppc = .parked ∨ s.ppc = .fence → s.sub = true
  parked : s.ppc = .parked → s.live = [] → ∃ i, s.cpc i = .last
  over : s.ppc = .fence ∨ s.ppc = .ready → s.live = []
  some : s.ppc = .check ∨ s.ppc = .susp → s.steals ≠ 0
  none : s.steals = 0 → s.sub = false

/-- Where the task's view stands. -/
structure IV (s : St) : Prop where
  at_ : s.ppc = .body ∨ s.ppc = .check ∨ s.ppc = .susp ∨ s.ppc = .ready → s.base ≤ s.ptv.cur .join

theorem IA.lastval {s : St} (h : IA s) (hs : s.sub = false) : s.mem.val .join (s.mem.last .join) = kMax - s.fin.length := by
  have := h.vals hs s.fin.length (Nat.le_refl _)
  have e : s.mem.last .join = s.base + s.fin.length := by
    have := h.len; rw [hs] at this; simp at this; unfold Mem.last; omega
  rw [e]; exact this

theorem Mem.len_rmwRel (m : Mem Loc) (tv : TV Loc) (v : Int) : (m.rmwRel tv .join v).len .join = m.len .join + 1 := by
  simp [Mem.rmwRel, Mem.len_append]

theorem Mem.val_rmwRel (m : Mem Loc) (tv : TV Loc) (v : Int) (k : Nat) (h : k < m.len .join) :
    (m.rmwRel tv .join v).val .join k = m.val .join k := by
  simp [Mem.rmwRel, Mem.val_append]; omega

theorem Mem.val_rmwRel_last (m : Mem Loc) (tv : TV Loc) (v : Int) : (m.rmwRel tv .join v).val .join (m.len .join) = v := by
  simp [Mem.rmwRel, Mem.val_append]

theorem store_data (m : Mem Loc) (tv : TV Loc) (n : Nat) (v : Int) :
    (m.store tv (.data n) v false).len .join = m.len .join ∧ (m.store tv (.data n) v false).val .join = m.val .join ∧
    (m.store tv (.data n) v false).view .join = m.view .join := by
  refine ⟨by simp [Mem.store, Mem.len_append], ?_, ?_⟩
  · funext k; simp [Mem.store, Mem.val_append]
  · funext k; simp [Mem.store, Mem.view_append]

theorem IA.init (v : Nat → Int) : IA (.init v) := by
  constructor <;> simp [St.init, Mem.init]

/-- Steps that change neither the join counter nor any place. -/
theorem IA.congr {s s' : St} (h : IA s) (e1 : s'.mem.len .join = s.mem.len .join) (e2 : s'.mem.val .join = s.mem.val .join)
    (e3 : s'.steals = s.steals) (e4 : s'.cpc = s.cpc) (e5 : s'.live = s.live) (e6 : s'.fin = s.fin) (e7 : s'.base = s.base)
    (e8 : s'.sub = s.sub) (e9 : s'.ppc = s.ppc) : IA s' := by
  obtain ⟨h1, h2, h3, h4, h5, h6, h7, h8, h9, h10, h11, h12, h13, h14, h15⟩ := h
  refine ⟨?_, ?_, ?_, ?_, ?_, ?_, ?_, ?_, ?_, ?_, ?_, ?_, ?_, ?_, ?_⟩ <;>
    simp only [Mem.last, e1, e2, e3, e4, e5, e6, e7, e8, e9] <;> assumption

theorem IA.dec {s : St} (h : IA s) (i : Nat) (hp : s.cpc i = .run) (tv : TV Loc) (c : Nat → TV Loc) :
    IA { s with
        mem := s.mem.rmwRel tv .join (s.mem.val .join (s.mem.last .join) - 1)
        ctv := c
        cpc := upd s.cpc i (if s.mem.val .join (s.mem.last .join) = 1 then .last else .done)
        live := s.live.erase i, fin := i :: s.fin } := by
  have hi : i ∈ s.live := (h.live i).2 hp
  have hel : (s.live.erase i).length + 1 = s.live.length := by
    rw [List.length_erase_of_mem hi]; have := List.length_pos_of_mem hi; omega
  have hlen := h.len
  have hcnt := h.cnt
  have hfew := h.few
  have hne : ∀ j, j ∈ s.fin → j ≠ i := by
    rintro j hj rfl
    rcases h.fins j hj with e | e <;> rw [hp] at e <;> cases e
  have nolast : ∀ j, s.cpc j ≠ .last := by
    intro j e
    rw [(h.last j e).2.2] at hi; cases hi
  have hval : s.mem.val .join (s.mem.last .join) = 1 ↔ s.sub = true ∧ s.live.length = 1 := by
    cases hs : s.sub
    · rw [h.lastval hs]; simp [kMax]; omega
    · rw [h.lastv hs]; simp; omega
  have hone : s.live.length = 1 ↔ s.live.erase i = [] := by
    rw [← List.length_eq_zero_iff]; omega
  refine ⟨?_, ?_, ?_, ?_, hfew, h.nodup.erase _, ?_, ?_, ?_, ?_, ?_, ?_, ?_, h.some, h.none⟩
  · show (Mem.rmwRel _ _ _ _).len Loc.join = s.base + 1 + (s.fin.length + 1) + _
    rw [Mem.len_rmwRel, hlen]; dsimp only; omega
  · intro hs k hk
    dsimp only at hs hk ⊢
    rw [hs] at hlen
    simp at hlen
    by_cases e : k = s.fin.length + 1
    · subst e
      have : s.base + (s.fin.length + 1) = s.mem.len .join := by omega
      rw [this, Mem.val_rmwRel_last, h.lastval hs]; push_cast; omega
    · rw [Mem.val_rmwRel _ _ _ _ (by simp at hk; omega)]
      exact h.vals hs k (by simp at hk; omega)
  · intro hs
    dsimp only at hs ⊢
    have : (Mem.rmwRel s.mem tv .join (s.mem.val .join (s.mem.last .join) - 1)).last .join = s.mem.len .join := by
      unfold Mem.last; rw [Mem.len_rmwRel]; omega
    rw [this, Mem.val_rmwRel_last, h.lastv hs]; simp; omega
  · show s.steals = (s.live.erase i).length + (s.fin.length + 1)
    omega
  · intro j
    show j ∈ s.live.erase i ↔ upd s.cpc i _ j = .run
    by_cases e : j = i
    · subst e
      rw [upd_same]
      have := h.nodup.not_mem_erase (a := j)
      constructor
      · intro h1; exact absurd h1 this
      · intro h1; split at h1 <;> cases h1
    · rw [upd_ne _ _ e, List.mem_erase_of_ne e]; exact h.live j
  · intro j hj
    show upd s.cpc i _ j = _ ∨ upd s.cpc i _ j = _
    by_cases e : j = i
    · subst e; rw [upd_same]; split <;> simp
    · rw [upd_ne _ _ e]
      rcases List.mem_cons.1 hj with h1 | h1
      · exact absurd h1 e
      · exact h.fins j h1
  · intro j hj
    change upd s.cpc i _ j = _ at hj
    by_cases e : j = i
    · subst e
      rw [upd_same] at hj
      split at hj
      · rename_i h1
        obtain ⟨h2, h3⟩ := hval.1 h1
        refine ⟨rfl, ?_, hone.1 h3⟩
        show s.ppc = .parked
        cases hp' : s.ppc with
        | parked => rfl
        | body => rw [h.nosub (.inl hp')] at h2; cases h2
        | check => rw [h.nosub (.inr (.inl hp'))] at h2; cases h2
        | susp => rw [h.nosub (.inr (.inr hp'))] at h2; cases h2
        | fence => rw [h.over (.inl hp')] at hi; cases hi
        | ready => rw [h.over (.inr hp')] at hi; cases hi
      · cases hj
    · rw [upd_ne _ _ e] at hj; exact absurd hj (nolast j)
  · exact h.nosub
  · exact h.sub
  · intro hpp hl
    dsimp only at hpp hl ⊢
    refine ⟨i, ?_⟩
    rw [upd_same, if_pos (hval.2 ⟨h.sub (.inl hpp), hone.2 hl⟩)]
  · intro hpp
    dsimp only at hpp ⊢
    rw [h.over hpp] at hi; cases hi

theorem IA.step {s s' : St} (h : IA s) (hv : IV s) (st : Step s s') : IA s' := by
  have hlen := h.len
  have hcnt := h.cnt
  have hfew := h.few
  cases st
  case pwrite n v hp hr => exact h.congr (store_data _ _ _ _).1 (store_data _ _ _ _).2.1 rfl rfl rfl rfl rfl rfl rfl
  case psync w hp hw => exact h.congr rfl rfl rfl rfl rfl rfl rfl rfl rfl
  case cwrite i n v hp hr => exact h.congr (store_data _ _ _ _).1 (store_data _ _ _ _).2.1 rfl rfl rfl rfl rfl rfl rfl
  case csync i w hp hw => exact h.congr rfl rfl rfl rfl rfl rfl rfl rfl rfl
  case dec i hp => exact h.dec i hp _ _
  case fork i hp hc hs =>
    have hn : i ∉ s.live := fun e => by rw [(h.live i).1 e] at hc; cases hc
    have hs' := h.nosub (.inl hp)
    obtain ⟨h1, h2, h3, h4, h5, h6, h7, h8, h9, h10, h11, h12, h13, h14, h15⟩ := h
    refine ⟨h1, h2, ?_, ?_, ?_, List.nodup_cons.2 ⟨hn, h6⟩, ?_, ?_, ?_, h10, h11, ?_, ?_, fun _ => Nat.succ_ne_zero _, fun _ => hs'⟩
    · intro e; rw [hs'] at e; cases e
    · show s.steals + 1 = (s.live.length + 1) + s.fin.length; omega
    · show s.steals + 1 ≤ 65534; omega
    · intro j
      show j ∈ i :: s.live ↔ upd s.cpc i _ j = .run
      by_cases e : j = i
      · subst e; simp [upd_same]
      · rw [upd_ne _ _ e, List.mem_cons, ← h7 j]; simp [e]
    · intro j hj
      have e : j ≠ i := by rintro rfl; rcases h8 j hj with e | e <;> rw [hc] at e <;> cases e
      show upd s.cpc i _ j = _ ∨ upd s.cpc i _ j = _
      rw [upd_ne _ _ e]; exact h8 j hj
    · intro j hj
      change upd s.cpc i _ j = _ at hj
      by_cases e : j = i
      · subst e; rw [upd_same] at hj; cases hj
      · rw [upd_ne _ _ e] at hj
        have := (h9 j hj).2.1
        rw [hp] at this; cases this
    · intro e; change s.ppc = _ at e; rw [hp] at e; cases e
    · rintro (e | e) <;> change s.ppc = _ at e <;> rw [hp] at e <;> cases e
  case win i hp =>
    obtain ⟨h1, h2, h3, h4, h5, h6, h7, h8, h9, h10, h11, h12, h13, h14, h15⟩ := h
    obtain ⟨e1, e2, e3⟩ := h9 i hp
    refine ⟨h1, h2, h3, h4, h5, h6, ?_, ?_, ?_, ?_, ?_, ?_, fun _ => e3, (by rintro (e | e) <;> cases e), h15⟩
    · intro j
      show j ∈ s.live ↔ upd s.cpc i _ j = .run
      by_cases e : j = i
      · subst e; rw [upd_same, e3]; simp
      · rw [upd_ne _ _ e]; exact h7 j
    · intro j hj
      show upd s.cpc i _ j = _ ∨ upd s.cpc i _ j = _
      by_cases e : j = i
      · subst e; rw [upd_same]; exact .inr rfl
      · rw [upd_ne _ _ e]; exact h8 j hj
    · intro j hj
      change upd s.cpc i _ j = _ at hj
      by_cases e : j = i
      · subst e; rw [upd_same] at hj; cases hj
      · rw [upd_ne _ _ e] at hj
        have := (h9 j hj).1
        rw [e1] at this; cases this; exact absurd rfl e
    · rintro (e | e | e) <;> cases e
    · rintro (e | e) <;> cases e
    · intro e; cases e
  case ready0 hp h0 =>
    have hs' := h.nosub (.inl hp)
    have nolast : ∀ j, s.cpc j ≠ .last := by
      intro j e; have := (h.last j e).2.1; rw [hp] at this; cases this
    obtain ⟨h1, h2, h3, h4, h5, h6, h7, h8, h9, h10, h11, h12, h13, h14, h15⟩ := h
    refine ⟨h1, h2, h3, h4, h5, h6, h7, h8, fun j e => absurd e (nolast j), ?_, ?_, ?_, fun _ => ?_, (by rintro (e | e) <;> cases e), h15⟩
    · rintro (e | e | e) <;> cases e
    · rintro (e | e) <;> cases e
    · intro e; cases e
    · show s.live = []
      exact List.length_eq_zero_iff.1 (by omega)
  case await hp h0 =>
    have hs' := h.nosub (.inl hp)
    have nolast : ∀ j, s.cpc j ≠ .last := by
      intro j e; have := (h.last j e).2.1; rw [hp] at this; cases this
    obtain ⟨h1, h2, h3, h4, h5, h6, h7, h8, h9, h10, h11, h12, h13, h14, h15⟩ := h
    refine ⟨h1, h2, h3, h4, h5, h6, h7, h8, fun j e => absurd e (nolast j), fun _ => hs', ?_, ?_, ?_, fun _ => h0, h15⟩
    · rintro (e | e) <;> cases e
    · intro e; cases e
    · rintro (e | e) <;> cases e
  case check j hp hr =>
    have hs' := h.nosub (.inr (.inl hp))
    have nolast : ∀ j, s.cpc j ≠ .last := by
      intro j e; have := (h.last j e).2.1; rw [hp] at this; cases this
    have hb := hv.at_ (.inr (.inl hp))
    have hj1 := hr.1
    have hj2 := hr.2
    rw [hs'] at hlen
    simp at hlen
    have hval := h.vals hs' (j - s.base) (by omega)
    rw [show s.base + (j - s.base) = j by omega] at hval
    obtain ⟨h1, h2, h3, h4, h5, h6, h7, h8, h9, h10, h11, h12, h13, h14, h15⟩ := h
    refine ⟨h1, h2, h3, h4, h5, h6, h7, h8, fun j e => absurd e (nolast j), fun _ => hs', ?_, ?_, ?_, fun _ => h14 (.inl hp), h15⟩
    · dsimp only; split <;> rintro (e | e) <;> cases e
    · dsimp only; split <;> intro e <;> cases e
    · dsimp only
      split
      · rename_i e1
        intro _
        rw [hval] at e1
        exact List.length_eq_zero_iff.1 (by omega)
      · rintro (e | e) <;> cases e
  case susp hp =>
    have hs' := h.nosub (.inr (.inr hp))
    have nolast : ∀ j, s.cpc j ≠ .last := by
      intro j e; have := (h.last j e).2.1; rw [hp] at this; cases this
    have hval := h.lastval hs'
    rw [hs'] at hlen
    simp at hlen
    obtain ⟨h1, h2, h3, h4, h5, h6, h7, h8, h9, h10, h11, h12, h13, h14, h15⟩ := h
    refine ⟨?_, ?_, ?_, h4, h5, h6, h7, h8, fun j e => absurd e (nolast j), ?_, fun _ => rfl, ?_, ?_, fun _ => h14 (.inr hp), fun e => absurd e (h14 (.inr hp))⟩
    · show (Mem.rmwRel _ _ _ _).len Loc.join = s.base + 1 + s.fin.length + 1
      rw [Mem.len_rmwRel]; omega
    · intro e; cases e
    · intro _
      have : ∀ v, (Mem.rmwRel s.mem s.ptv .join v).last .join = s.mem.len .join := by
        intro v; unfold Mem.last; rw [Mem.len_rmwRel]; omega
      dsimp only
      rw [this, Mem.val_rmwRel_last, hval]; omega
    · dsimp only; split <;> rintro (e | e | e) <;> cases e
    · dsimp only
      split
      · intro e; cases e
      · rename_i e1
        intro _ e2
        rw [e2] at hcnt
        simp at hcnt
        exfalso; apply e1; rw [hval]; omega
    · dsimp only
      split
      · rename_i e1
        intro _
        rw [hval] at e1
        exact List.length_eq_zero_iff.1 (by omega)
      · rintro (e | e) <;> cases e
  case fence hp =>
    have nolast : ∀ j, s.cpc j ≠ .last := by
      intro j e; have := (h.last j e).2.1; rw [hp] at this; cases this
    obtain ⟨h1, h2, h3, h4, h5, h6, h7, h8, h9, h10, h11, h12, h13, h14, h15⟩ := h
    refine ⟨h1, h2, h3, h4, h5, h6, h7, h8, fun j e => absurd e (nolast j), ?_, ?_, ?_, fun _ => h13 (.inl hp), (by rintro (e | e) <;> cases e), h15⟩
    · rintro (e | e | e) <;> cases e
    · rintro (e | e) <;> cases e
    · intro e; cases e
  case resume0 hp h0 =>
    have nolast : ∀ j, s.cpc j ≠ .last := by
      intro j e; have := (h.last j e).2.1; rw [hp] at this; cases this
    obtain ⟨h1, h2, h3, h4, h5, h6, h7, h8, h9, h10, h11, h12, h13, h14, h15⟩ := h
    refine ⟨h1, h2, h3, h4, h5, h6, h7, h8, fun j e => absurd e (nolast j), fun _ => h15 h0, ?_, ?_, ?_, (by rintro (e | e) <;> cases e), h15⟩
    · rintro (e | e) <;> cases e
    · intro e; cases e
    · rintro (e | e) <;> cases e
  case reset hp h0 =>
    have nolast : ∀ j, s.cpc j ≠ .last := by
      intro j e; have := (h.last j e).2.1; rw [hp] at this; cases this
    have hl := h.over (.inr hp)
    obtain ⟨h1, h2, h3, h4, h5, h6, h7, h8, h9, h10, h11, h12, h13, h14, h15⟩ := h
    refine ⟨?_, ?_, ?_, rfl, by simp, List.nodup_nil, ?_, ?_, fun j e => absurd e (nolast j), fun _ => rfl, ?_, ?_, ?_,
      (by rintro (e | e) <;> cases e), fun _ => rfl⟩
    · simp [Mem.store, Mem.len_append]
    · intro _ k hk
      simp at hk
      subst hk
      simp [Mem.store, Mem.val_append]
    · intro e; cases e
    · intro j
      have := h7 j
      rw [hl] at this
      exact this
    · intro j hj; cases hj
    · rintro (e | e) <;> cases e
    · intro e; cases e
    · rintro (e | e) <;> cases e

/-! ### Views -/

/-- The view of the last message of `m_join`. -/
def St.jv (s : St) : View Loc := s.mem.view .join (s.mem.last .join)

/-- `m_join`'s last message carries what everybody who has arrived knew. -/
structure IB (s : St) : Prop where
  fins : ∀ i ∈ s.fin, ∀ l, (s.ctv i).cur l ≤ s.jv l
  task : s.sub = true → ∀ l, s.pold l ≤ s.jv l
  keep : s.ppc = .check ∨ s.ppc = .susp → ∀ l, s.pold l ≤ s.ptv.cur l
  last : ∀ i, s.cpc i = .last → ∀ l, s.jv l ≤ (s.ctv i).acq l
  fence : s.ppc = .fence → ∀ l, s.jv l ≤ s.ptv.acq l
  ready : s.ppc = .ready → (∀ i ∈ s.fin, ∀ l, (s.ctv i).cur l ≤ s.ptv.cur l) ∧ ∀ l, s.pold l ≤ s.ptv.cur l
  own : s.sub = true → s.base ≤ s.jv .join

theorem jv_rmwRel (m : Mem Loc) (tv : TV Loc) (v : Int) (l : Loc) :
    (m.rmwRel tv .join v).view .join ((m.rmwRel tv .join v).last .join) l =
      max (if l = .join then m.len .join else tv.cur l) (m.view .join (m.last .join) l) := by
  have : (m.rmwRel tv .join v).last .join = m.len .join := by unfold Mem.last; rw [Mem.len_rmwRel]; omega
  rw [this]
  simp [Mem.rmwRel, Mem.view_append', Weak.join, TV.msg]

theorem cur_rmwRel (m : Mem Loc) (tv : TV Loc) (l : Loc) :
    (tv.rmwRel m .join).cur l = if l = .join then m.len .join else tv.cur l := by
  simp only [TV.rmwRel, TV.bump, TV.read, single]
  by_cases e : l = .join <;> simp [e]

theorem acq_rmwRel (m : Mem Loc) (tv : TV Loc) (l : Loc) (h : m.view .join (m.last .join) l ≤ m.len .join ∨ l ≠ .join) :
    m.view .join (m.last .join) l ≤ (tv.rmwRel m .join).acq l := by
  simp only [TV.rmwRel, TV.bump, TV.read, single]
  by_cases e : l = .join
  · subst e; simp; rcases h with h | h
    · exact h
    · exact absurd rfl h
  · simp [e]; omega

/-! ### Well-formedness -/

/-- A thread's view is well formed, and what it knows it has also seen. -/
structure TOk (m : Mem Loc) (tv : TV Loc) : Prop where
  wf : TWf m tv
  le : ∀ l, tv.cur l ≤ tv.acq l

structure IW (s : St) : Prop where
  m : MWf s.mem
  p : TOk s.mem s.ptv
  c : ∀ i, TOk s.mem (s.ctv i)

theorem TOk.append {m : Mem Loc} {tv : TV Loc} (h : TOk m tv) (l : Loc) (v : Int) (w : View Loc) : TOk (m.append l v w) tv :=
  ⟨h.wf.append l v w, h.le⟩

theorem TOk.bump {m : Mem Loc} {tv : TV Loc} (h : TOk m tv) (l : Loc) (v : Int) (w : View Loc) :
    TOk (m.append l v w) (tv.bump m l) := by
  refine ⟨h.wf.bump l v w, fun x => ?_⟩
  have := h.le x
  simp only [TV.bump]; split <;> omega

theorem TOk.read {m : Mem Loc} {tv : TV Loc} (h : TOk m tv) (hm : MWf m) {l : Loc} {i : Nat} (a : Bool) (hi : i < m.len l) :
    TOk m (tv.read m l i a) := by
  refine ⟨h.wf.read hm a hi, fun x => ?_⟩
  have := h.le x
  simp only [TV.read]; split <;> omega

theorem TOk.learn {m : Mem Loc} {tv : TV Loc} (h : TOk m tv) {w : View Loc} (hw : m.Valid w) : TOk m (learn tv w) := by
  refine ⟨h.wf.sync hw, fun x => ?_⟩
  have := h.le x
  simp only [Join.learn, Weak.join]; omega

theorem TOk.fenceAcq {m : Mem Loc} {tv : TV Loc} (h : TOk m tv) : TOk m tv.fenceAcq := by
  refine ⟨⟨fun x => ?_, h.wf.acq, fun x => ?_⟩, fun x => ?_⟩
  · have := h.wf.cur x; have := h.wf.acq x; simp only [TV.fenceAcq, Weak.join]; omega
  · have := h.wf.rel x; simp only [TV.fenceAcq, Weak.join]; omega
  · have := h.le x; simp only [TV.fenceAcq, Weak.join]; omega

theorem TOk.rmwRel {m : Mem Loc} {tv : TV Loc} (h : TOk m tv) (hm : MWf m) (l : Loc) (v : Int) :
    TOk (m.rmwRel tv l v) (tv.rmwRel m l) :=
  (h.read hm false (Nat.sub_lt (hm.pos l) Nat.one_pos)).bump l v _

theorem MWf.rmwRel {m : Mem Loc} {tv : TV Loc} (h : TOk m tv) (hm : MWf m) (l : Loc) (v : Int) : MWf (m.rmwRel tv l v) := by
  have hi : m.last l < m.len l := Nat.sub_lt (hm.pos l) Nat.one_pos
  refine hm.append _ _ _ (fun x => ?_) (fun x hx => ?_)
  · have := (h.wf.msg_le l true).1 x; have := hm.msg l _ hi x; simp only [Weak.join]; omega
  · have := (h.wf.msg_le l true).2 x hx; have := hm.msg l _ hi x; simp only [Weak.join]; omega

theorem IW.init (v : Nat → Int) : IW (.init v) :=
  ⟨MWf.init _, ⟨TWf.init _, fun _ => Nat.le_refl _⟩, fun _ => ⟨TWf.init _, fun _ => Nat.le_refl _⟩⟩

theorem TOk.upd {m : Mem Loc} {f : Nat → TV Loc} (h : ∀ i, TOk m (f i)) (i : Nat) {x : TV Loc} (hx : TOk m x) (j : Nat) :
    TOk m (upd f i x j) := by
  by_cases e : j = i
  · subst e; rw [upd_same]; exact hx
  · rw [upd_ne _ _ e]; exact h j

theorem IW.step {s s' : St} (h : IW s) (st : Step s s') : IW s' := by
  obtain ⟨m, p, c⟩ := h
  cases st
  case pwrite => exact ⟨m.store p.wf _ _ _, p.bump _ _ _, fun i => (c i).append _ _ _⟩
  case psync w _ hw => exact ⟨m, p.learn hw, c⟩
  case fork i _ _ _ => exact ⟨m, p, TOk.upd c i p⟩
  case cwrite i n v _ _ =>
    exact ⟨m.store (c i).wf _ _ _, p.append _ _ _, TOk.upd (fun j => (c j).append _ _ _) i ((c i).bump _ _ _)⟩
  case csync i w _ hw => exact ⟨m, p, TOk.upd c i ((c i).learn hw)⟩
  case dec i _ =>
    exact ⟨MWf.rmwRel (c i) m _ _, p.append _ _ _, TOk.upd (fun j => (c j).append _ _ _) i ((c i).rmwRel m _ _)⟩
  case win i _ => exact ⟨m, (c i).fenceAcq, c⟩
  case ready0 => exact ⟨m, p, c⟩
  case await => exact ⟨m, p, c⟩
  case check j _ hr => exact ⟨m, p.read m true hr.2, c⟩
  case susp => exact ⟨MWf.rmwRel p m _ _, p.rmwRel m _ _, fun i => (c i).append _ _ _⟩
  case fence => exact ⟨m, p.fenceAcq, c⟩
  case resume0 => exact ⟨m, p, c⟩
  case reset => exact ⟨m.store p.wf _ _ _, p.bump _ _ _, fun i => (c i).append _ _ _⟩

/-! ### What arrives with the join -/

theorem IB.init (v : Nat → Int) : IB (.init v) := by
  constructor <;> simp [St.init]

theorem IB.step {s s' : St} (a : IA s) (w : IW s) (v : IV s) (h : IB s) (st : Step s s') : IB s' := by
  have hlen := a.len
  have hm : ∀ l, s.jv l < s.mem.len l := w.m.msg .join _ (Nat.sub_lt (w.m.pos .join) Nat.one_pos)
  obtain ⟨h1, h2, h3, h4, h5, h6, h7⟩ := h
  cases st
  case pwrite n x hp hr =>
    have e : ∀ (t : TV Loc), ({ s with mem := s.mem.store s.ptv (.data n) x false, ptv := t } : St).jv = s.jv := by
      intro t; unfold St.jv Mem.last; dsimp only; rw [(store_data _ _ _ _).1, (store_data _ _ _ _).2.2]
    constructor <;> simp only [e]
    · exact h1
    · exact h2
    · rintro (e | e) <;> rw [hp] at e <;> cases e
    · exact h4
    · intro e; rw [hp] at e; cases e
    · intro e; rw [hp] at e; cases e
    · exact h7
  case psync u hp hw =>
    refine ⟨h1, h2, ?_, h4, ?_, ?_, h7⟩
    · rintro (e | e) <;> change s.ppc = _ at e <;> rw [hp] at e <;> cases e
    · intro e; change s.ppc = _ at e; rw [hp] at e; cases e
    · intro e; change s.ppc = _ at e; rw [hp] at e; cases e
  case fork i hp hc hs =>
    refine ⟨?_, h2, h3, ?_, h5, ?_, h7⟩
    · intro j hj l
      have e : j ≠ i := by rintro rfl; rcases a.fins j hj with e | e <;> rw [hc] at e <;> cases e
      show (upd s.ctv i _ j).cur l ≤ s.jv l
      rw [upd_ne _ _ e]; exact h1 j hj l
    · intro j hj l
      change upd s.cpc i _ j = _ at hj
      show s.jv l ≤ (upd s.ctv i _ j).acq l
      by_cases e : j = i
      · subst e; rw [upd_same] at hj; cases hj
      · rw [upd_ne _ _ e] at hj ⊢; exact h4 j hj l
    · intro e; change s.ppc = _ at e; rw [hp] at e; cases e
  case cwrite i n x hp hr =>
    have e : ∀ (t : Nat → TV Loc), ({ s with mem := s.mem.store (s.ctv i) (.data n) x false, ctv := t } : St).jv = s.jv := by
      intro t; unfold St.jv Mem.last; dsimp only; rw [(store_data _ _ _ _).1, (store_data _ _ _ _).2.2]
    have hni : ∀ j, j ∈ s.fin → j ≠ i := by
      rintro j hj rfl; rcases a.fins j hj with e | e <;> rw [hp] at e <;> cases e
    constructor <;> simp only [e]
    · intro j hj l; rw [upd_ne _ _ (hni j hj)]; exact h1 j hj l
    · exact h2
    · exact h3
    · intro j hj l
      have : j ≠ i := by rintro rfl; rw [hp] at hj; cases hj
      rw [upd_ne _ _ this]; exact h4 j hj l
    · exact h5
    · intro hp'
      refine ⟨fun j hj l => ?_, (h6 hp').2⟩
      rw [upd_ne _ _ (hni j hj)]; exact (h6 hp').1 j hj l
    · exact h7
  case csync i u hp hw =>
    have hni : ∀ j, j ∈ s.fin → j ≠ i := by
      rintro j hj rfl; rcases a.fins j hj with e | e <;> rw [hp] at e <;> cases e
    refine ⟨?_, h2, h3, ?_, h5, ?_, h7⟩
    · intro j hj l
      show (upd s.ctv i _ j).cur l ≤ s.jv l
      rw [upd_ne _ _ (hni j hj)]; exact h1 j hj l
    · intro j hj l
      have : j ≠ i := by rintro rfl; change s.cpc j = _ at hj; rw [hp] at hj; cases hj
      show s.jv l ≤ (upd s.ctv i _ j).acq l
      rw [upd_ne _ _ this]; exact h4 j hj l
    · intro hp'
      refine ⟨fun j hj l => ?_, (h6 hp').2⟩
      show (upd s.ctv i _ j).cur l ≤ s.ptv.cur l
      rw [upd_ne _ _ (hni j hj)]; exact (h6 hp').1 j hj l
  case dec i hp =>
    have hil : i ∈ s.live := (a.live i).2 hp
    have hni : ∀ j, j ∈ s.fin → j ≠ i := by
      rintro j hj rfl; rcases a.fins j hj with e | e <;> rw [hp] at e <;> cases e
    have nolast : ∀ j, s.cpc j ≠ .last := by
      intro j e; rw [(a.last j e).2.2] at hil; cases hil
    have hjv := jv_rmwRel s.mem (s.ctv i) (s.mem.val .join (s.mem.last .join) - 1)
    refine ⟨?_, ?_, h3, ?_, ?_, ?_, ?_⟩
    · intro j hj l
      show (upd s.ctv i _ j).cur l ≤ (Mem.rmwRel _ _ _ _).view Loc.join ((Mem.rmwRel _ _ _ _).last Loc.join) l
      rw [hjv]
      by_cases e : j = i
      · subst e; rw [upd_same, cur_rmwRel]; split <;> omega
      · rw [upd_ne _ _ e]
        rcases List.mem_cons.1 hj with e' | e'
        · exact absurd e' e
        · have := h1 j e' l; unfold St.jv at this; omega
    · intro hs l
      show s.pold l ≤ (Mem.rmwRel _ _ _ _).view Loc.join ((Mem.rmwRel _ _ _ _).last Loc.join) l
      rw [hjv]
      have := h2 hs l; unfold St.jv at this; omega
    · intro j hj l
      change upd s.cpc i _ j = _ at hj
      show (Mem.rmwRel _ _ _ _).view Loc.join ((Mem.rmwRel _ _ _ _).last Loc.join) l ≤ (upd s.ctv i _ j).acq l
      rw [hjv]
      by_cases e : j = i
      · subst e
        rw [upd_same]
        have hb := hm l
        unfold St.jv at hb
        have hle := (w.c j).le l
        simp only [TV.rmwRel, TV.bump, TV.read]
        split
        · subst_vars; omega
        · omega
      · rw [upd_ne _ _ e] at hj; exact absurd hj (nolast j)
    · intro e; change s.ppc = _ at e; rw [a.over (.inl e)] at hil; cases hil
    · intro e; change s.ppc = _ at e; rw [a.over (.inr e)] at hil; cases hil
    · intro hs
      show s.base ≤ (Mem.rmwRel _ _ _ _).view Loc.join ((Mem.rmwRel _ _ _ _).last Loc.join) Loc.join
      rw [hjv, if_pos rfl]
      omega
  case win i hp =>
    have hs := a.sub (.inl (a.last i hp).2.1)
    have hacq := h4 i hp
    refine ⟨h1, h2, ?_, ?_, ?_, ?_, h7⟩
    · rintro (e | e) <;> cases e
    · intro j hj l
      change upd s.cpc i _ j = _ at hj
      by_cases e : j = i
      · subst e; rw [upd_same] at hj; cases hj
      · rw [upd_ne _ _ e] at hj; exact h4 j hj l
    · intro e; cases e
    · intro _
      refine ⟨fun j hj l => ?_, fun l => ?_⟩
      · show (s.ctv j).cur l ≤ (s.ctv i).fenceAcq.cur l
        have := h1 j hj l; have := hacq l
        simp only [TV.fenceAcq, Weak.join]; omega
      · show s.pold l ≤ (s.ctv i).fenceAcq.cur l
        have := h2 hs l; have := hacq l
        simp only [TV.fenceAcq, Weak.join]; omega
  case ready0 hp h0 =>
    have hf : s.fin = [] := List.length_eq_zero_iff.1 (by have := a.cnt; omega)
    have hs := a.none h0
    refine ⟨h1, fun e => ?_, ?_, h4, ?_, fun _ => ⟨fun j hj => ?_, fun l => Nat.le_refl _⟩, h7⟩
    · change s.sub = _ at e; rw [hs] at e; cases e
    · rintro (e | e) <;> cases e
    · intro e; cases e
    · change j ∈ s.fin at hj; rw [hf] at hj; cases hj
  case await hp h0 =>
    have hs := a.nosub (.inl hp)
    refine ⟨h1, fun e => ?_, fun _ l => Nat.le_refl _, h4, ?_, ?_, h7⟩
    · change s.sub = _ at e; rw [hs] at e; cases e
    · intro e; cases e
    · intro e; cases e
  case check j hp hr =>
    have hs := a.nosub (.inr (.inl hp))
    have hb := v.at_ (.inr (.inl hp))
    have hk := h3 (.inl hp)
    have hj1 := hr.1
    have hj2 := hr.2
    rw [hs] at hlen
    simp at hlen
    have hval := a.vals hs (j - s.base) (by omega)
    rw [show s.base + (j - s.base) = j by omega] at hval
    have hmono : ∀ l, s.ptv.cur l ≤ (s.ptv.read s.mem .join j true).cur l := by
      intro l; simp only [TV.read]; omega
    refine ⟨h1, h2, fun _ l => Nat.le_trans (hk l) (hmono l), h4, ?_, ?_, h7⟩
    · intro e; dsimp only at e; split at e <;> cases e
    · intro e
      dsimp only at e
      split at e
      · rename_i e1
        rw [hval] at e1
        have hcnt := a.cnt
        have ej : j = s.mem.last .join := by unfold Mem.last; omega
        refine ⟨fun i hi l => ?_, fun l => Nat.le_trans (hk l) (hmono l)⟩
        show _ ≤ (s.ptv.read s.mem .join j true).cur l
        have h8 := h1 i hi l
        unfold St.jv at h8
        rw [← ej] at h8
        simp only [TV.read, if_true]; omega
      · cases e
  case susp hp =>
    have hs := a.nosub (.inr (.inr hp))
    have hk := h3 (.inr hp)
    have nolast : ∀ j, s.cpc j ≠ .last := by
      intro j e; have := (a.last j e).2.1; rw [hp] at this; cases this
    have hjv := jv_rmwRel s.mem s.ptv (s.mem.val .join (s.mem.last .join) - (kMax - s.steals))
    refine ⟨?_, ?_, ?_, fun j e => absurd e (nolast j), ?_, ?_, ?_⟩
    · intro i hi l
      show (s.ctv i).cur l ≤ (Mem.rmwRel _ _ _ _).view Loc.join ((Mem.rmwRel _ _ _ _).last Loc.join) l
      rw [hjv]
      have := h1 i hi l; unfold St.jv at this; omega
    · intro _ l
      show s.pold l ≤ (Mem.rmwRel _ _ _ _).view Loc.join ((Mem.rmwRel _ _ _ _).last Loc.join) l
      rw [hjv]
      have h8 := hk l
      have h9 := w.p.wf.cur l
      split
      · subst_vars; omega
      · omega
    · rintro e; dsimp only at e; split at e <;> rcases e with e | e <;> cases e
    · intro _ l
      show (Mem.rmwRel _ _ _ _).view Loc.join ((Mem.rmwRel _ _ _ _).last Loc.join) l ≤ (s.ptv.rmwRel s.mem .join).acq l
      rw [hjv]
      have hb := hm l
      unfold St.jv at hb
      have hle := w.p.le l
      simp only [TV.rmwRel, TV.bump, TV.read]
      split
      · subst_vars; omega
      · omega
    · intro e; dsimp only at e; split at e <;> cases e
    · intro _
      show s.base ≤ (Mem.rmwRel _ _ _ _).view Loc.join ((Mem.rmwRel _ _ _ _).last Loc.join) Loc.join
      rw [hjv, if_pos rfl]
      omega
  case fence hp =>
    have hs := a.sub (.inr hp)
    have hacq := h5 hp
    refine ⟨h1, h2, ?_, h4, ?_, ?_, h7⟩
    · rintro (e | e) <;> cases e
    · intro e; cases e
    · intro _
      refine ⟨fun j hj l => ?_, fun l => ?_⟩
      · show (s.ctv j).cur l ≤ s.ptv.fenceAcq.cur l
        have := h1 j hj l; have := hacq l
        simp only [TV.fenceAcq, Weak.join]; omega
      · show s.pold l ≤ s.ptv.fenceAcq.cur l
        have := h2 hs l; have := hacq l
        simp only [TV.fenceAcq, Weak.join]; omega
  case resume0 hp h0 =>
    refine ⟨h1, h2, ?_, h4, ?_, ?_, h7⟩
    · rintro (e | e) <;> cases e
    · intro e; cases e
    · intro e; cases e
  case reset hp h0 =>
    have nolast : ∀ j, s.cpc j ≠ .last := by
      intro j e; have := (a.last j e).2.1; rw [hp] at this; cases this
    refine ⟨?_, ?_, ?_, fun j e => absurd e (nolast j), ?_, ?_, ?_⟩
    · intro i hi; cases hi
    · intro e; cases e
    · rintro (e | e) <;> cases e
    · intro e; cases e
    · intro e; cases e
    · intro e; cases e

theorem IV.init (v : Nat → Int) : IV (.init v) := ⟨fun _ => Nat.zero_le _⟩

theorem IV.step {s s' : St} (a : IA s) (w : IW s) (h : IV s) (b : IB s) (st : Step s s') : IV s' := by
  have hx := h.at_
  cases st
  case pwrite n x hp hr =>
    refine ⟨fun _ => ?_⟩
    have := hx (.inl hp)
    show s.base ≤ (s.ptv.bump s.mem (.data n)).cur .join
    simpa [TV.bump] using this
  case psync u hp hw =>
    refine ⟨fun _ => ?_⟩
    have := hx (.inl hp)
    show s.base ≤ (learn s.ptv u).cur .join
    simp only [learn, Weak.join]; omega
  case fork => exact ⟨hx⟩
  case cwrite => exact ⟨hx⟩
  case csync => exact ⟨hx⟩
  case dec => exact ⟨hx⟩
  case win i hp =>
    refine ⟨fun _ => ?_⟩
    show s.base ≤ (s.ctv i).fenceAcq.cur .join
    have h1 := b.last i hp .join
    have h2 := b.own (a.sub (.inl (a.last i hp).2.1))
    simp only [TV.fenceAcq, Weak.join]; omega
  case ready0 hp h0 => exact ⟨fun _ => hx (.inl hp)⟩
  case await hp h0 => exact ⟨fun _ => hx (.inl hp)⟩
  case check j hp hr =>
    refine ⟨fun _ => ?_⟩
    have := hx (.inr (.inl hp))
    show s.base ≤ (s.ptv.read s.mem .join j true).cur .join
    simp only [TV.read]; omega
  case susp hp =>
    refine ⟨fun e => ?_⟩
    dsimp only at e
    exfalso
    split at e <;> rcases e with e | e | e | e <;> cases e
  case fence hp =>
    refine ⟨fun _ => ?_⟩
    show s.base ≤ s.ptv.fenceAcq.cur .join
    have h1 := b.fence hp .join
    have h2 := b.own (a.sub (.inr hp))
    simp only [TV.fenceAcq, Weak.join]; omega
  case resume0 hp h0 => exact ⟨fun _ => hx (.inr (.inr (.inr hp)))⟩
  case reset hp h0 =>
    refine ⟨fun _ => ?_⟩
    show s.mem.len .join ≤ (s.ptv.bump s.mem .join).cur .join
    simp [TV.bump]

theorem inv_reach {s : St} (h : Reach s) : IA s ∧ IW s ∧ IV s ∧ IB s := by
  induction h with
  | init v => exact ⟨.init v, .init v, .init v, .init v⟩
  | step _ st ih =>
    obtain ⟨a, w, v, b⟩ := ih
    exact ⟨a.step v st, w.step st, v.step a w b st, b.step a w v st⟩

end Verif.Weak.Join
