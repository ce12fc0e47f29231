import Verif.Weak.EvModel

/-! C46: invariants of `Weak/EvModel.lean`. -/
namespace Verif.Weak.Ev
open Verif.EventCount (addEpoch addWaiter subWaiter epochOf waitersOf num num_change num_lt num_pos num_congr Rep P32)

theorem upd_same {α : Type} (f : Nat → α) (i : Nat) (v : α) : upd f i v i = v := by simp [upd]
theorem upd_ne {α : Type} (f : Nat → α) {i j : Nat} (v : α) (h : j ≠ i) : upd f i v j = f j := by simp [upd, h]

/-- A view that refers to existing messages, and with a message of `m_val` contains what this message carries. -/
structure Closed (m : Mem Loc) (w : View Loc) : Prop where
  lt : ∀ l, w l < m.len l
  le : ∀ l, m.view .word (w .word) l ≤ w l

/-- The memory: `m_val` is a chain of read-modify-writes. -/
structure IM (m : Mem Loc) : Prop where
  pos : ∀ l, 0 < m.len l
  self : ∀ i, i < m.len .word → m.view .word i .word = i
  chain : ∀ i, i + 1 < m.len .word → ∀ l, m.view .word i l ≤ m.view .word (i + 1) l
  closed : ∀ l i, i < m.len l → Closed m (m.view l i)

structure IT (m : Mem Loc) (tv : TV Loc) : Prop where
  cur : Closed m tv.cur
  acq : Closed m tv.acq
  rel : Closed m tv.rel

theorem IM.mono {m : Mem Loc} (h : IM m) {i j : Nat} (hij : i ≤ j) (hj : j < m.len .word) (l : Loc) :
    m.view .word i l ≤ m.view .word j l := by
  induction j with
  | zero => obtain rfl : i = 0 := by omega
            exact Nat.le_refl _
  | succ j ih =>
    by_cases e : i = j + 1
    · subst e; exact Nat.le_refl _
    · exact Nat.le_trans (ih (by omega) (by omega)) (h.chain j hj l)

theorem Closed.sup {m : Mem Loc} {a b : View Loc} (ha : Closed m a) (hb : Closed m b) :
    Closed m fun l => max (a l) (b l) := by
  refine ⟨fun l => by have := ha.lt l; have := hb.lt l; omega, fun l => ?_⟩
  have h1 := ha.le l
  have h2 := hb.le l
  show m.view .word (max (a .word) (b .word)) l ≤ max (a l) (b l)
  rcases Nat.le_total (a .word) (b .word) with h | h
  · rw [Nat.max_eq_right h]; omega
  · rw [Nat.max_eq_left h]; omega

theorem Closed.join {m : Mem Loc} {a b : View Loc} (ha : Closed m a) (hb : Closed m b) : Closed m (Weak.join a b) :=
  ha.sup hb

/-- Knowing one more message of a cell. -/
theorem Closed.data {m : Mem Loc} {a : View Loc} (ha : Closed m a) {n i : Nat} (hi : i < m.len (.data n)) :
    Closed m fun l => max (a l) (single (.data n) i l) := by
  refine ⟨fun l => ?_, fun l => ?_⟩
  · have := ha.lt l
    by_cases e : l = .data n
    · subst e; simp only [single, if_true]; omega
    · simp only [single, if_neg e]; omega
  · have h1 := ha.le l
    have e : (Loc.word = Loc.data n) = False := by simp
    simp only [single, e, if_false, Nat.max_zero] at h1 ⊢
    omega

theorem append_view_old {m : Mem Loc} {l l' : Loc} {v : Int} {w : View Loc} {i : Nat} (hi : i < m.len l') :
    (m.append l v w).view l' i = m.view l' i := by
  simp only [Mem.append]
  rw [if_neg]; rintro ⟨rfl, rfl⟩; omega

theorem append_val_old {m : Mem Loc} {l l' : Loc} {v : Int} {w : View Loc} {i : Nat} (hi : i < m.len l') :
    (m.append l v w).val l' i = m.val l' i := by
  simp only [Mem.append]
  rw [if_neg]; rintro ⟨rfl, rfl⟩; omega

theorem append_view_new {m : Mem Loc} {l : Loc} {v : Int} {w : View Loc} : (m.append l v w).view l (m.len l) = w := by
  simp [Mem.append]

theorem append_val_new {m : Mem Loc} {l : Loc} {v : Int} {w : View Loc} : (m.append l v w).val l (m.len l) = v := by
  simp [Mem.append]

theorem append_len_same {m : Mem Loc} {l : Loc} {v : Int} {w : View Loc} : (m.append l v w).len l = m.len l + 1 := by
  simp [Mem.append]

theorem append_len_ne {m : Mem Loc} {l l' : Loc} {v : Int} {w : View Loc} (h : l' ≠ l) : (m.append l v w).len l' = m.len l' := by
  simp [Mem.append, h]

theorem append_len_le {m : Mem Loc} {l l' : Loc} {v : Int} {w : View Loc} : m.len l' ≤ (m.append l v w).len l' := by
  simp only [Mem.append]; split
  · subst_vars; omega
  · exact Nat.le_refl _

theorem Closed.append {m : Mem Loc} {a : View Loc} (ha : Closed m a) (l : Loc) (v : Int) (w : View Loc) :
    Closed (m.append l v w) a := by
  refine ⟨fun x => Nat.lt_of_lt_of_le (ha.lt x) append_len_le, fun x => ?_⟩
  rw [append_view_old (ha.lt _)]; exact ha.le x

theorem IT.append {m : Mem Loc} {tv : TV Loc} (h : IT m tv) (l : Loc) (v : Int) (w : View Loc) : IT (m.append l v w) tv :=
  ⟨h.cur.append .., h.acq.append .., h.rel.append ..⟩

/-- A new message of a cell. -/
theorem Closed.bump {m : Mem Loc} {a : View Loc} (ha : Closed m a) (n : Nat) (v : Int) (w : View Loc) :
    Closed (m.append (.data n) v w) fun x => if x = .data n then m.len (.data n) else a x := by
  refine ⟨fun x => ?_, fun x => ?_⟩
  · by_cases e : x = .data n
    · subst e; simp [append_len_same]
    · simp only [if_neg e, append_len_ne e]; exact ha.lt x
  · have e : (Loc.word = Loc.data n) = False := by simp
    simp only [e, if_false]
    rw [append_view_old (ha.lt _)]
    by_cases e : x = .data n
    · subst e; rw [if_pos rfl]
      exact Nat.le_trans (ha.le _) (Nat.le_of_lt (ha.lt _))
    · rw [if_neg e]; exact ha.le x

theorem IM.append_data {m : Mem Loc} (h : IM m) (n : Nat) (v : Int) (w : View Loc)
    (hw : Closed (m.append (.data n) v w) w) : IM (m.append (.data n) v w) := by
  have e : Loc.word ≠ Loc.data n := nofun
  refine ⟨fun l => Nat.lt_of_lt_of_le (h.pos l) append_len_le, ?_, ?_, ?_⟩
  · intro i hi
    rw [append_len_ne e] at hi
    rw [append_view_old hi]; exact h.self i hi
  · intro i hi l
    rw [append_len_ne e] at hi
    rw [append_view_old hi, append_view_old (by omega)]; exact h.chain i hi l
  · intro l i hi
    by_cases e' : l = .data n
    · subst e'
      rw [append_len_same] at hi
      by_cases ei : i = m.len (.data n)
      · subst ei; rw [append_view_new]; exact hw
      · rw [append_view_old (by omega)]; exact (h.closed _ i (by omega)).append ..
    · rw [append_len_ne e'] at hi
      rw [append_view_old hi]; exact (h.closed _ i hi).append ..

/-- Reading a message of a cell. -/
theorem IT.read_data {m : Mem Loc} {tv : TV Loc} (hm : IM m) (h : IT m tv) {n i : Nat} (hi : i < m.len (.data n)) (b : Bool) :
    IT m (tv.read m (.data n) i b) := by
  have hc := hm.closed (.data n) i hi
  refine ⟨?_, (h.acq.data hi).sup hc, h.rel⟩
  cases b
  · simpa [TV.read] using h.cur.data hi
  · simpa [TV.read] using (h.cur.data hi).sup hc

/-- Reading a message of `m_val` with an acquire load. -/
theorem read_word {m : Mem Loc} (hm : IM m) {a : View Loc} {i : Nat} (hi : i < m.len .word) :
    (fun x => max (max (a x) (single .word i x)) (m.view .word i x)) = fun x => max (a x) (m.view .word i x) := by
  funext x
  by_cases e : x = .word
  · subst e; rw [hm.self i hi]; simp only [single, if_true]; omega
  · simp only [single, if_neg e]; omega

theorem IT.read_word {m : Mem Loc} {tv : TV Loc} (hm : IM m) (h : IT m tv) {i : Nat} (hi : i < m.len .word) :
    IT m (tv.read m .word i true) := by
  have hc := hm.closed .word i hi
  refine ⟨?_, ?_, h.rel⟩
  · simp only [TV.read, if_true]; rw [Ev.read_word hm hi]; exact h.cur.sup hc
  · simp only [TV.read]; rw [Ev.read_word hm hi]; exact h.acq.sup hc

theorem last_lt {m : Mem Loc} (h : IM m) (l : Loc) : m.last l < m.len l := by
  have := h.pos l; simp only [Mem.last]; omega

/-- A store to a cell. -/
theorem store_inv {m : Mem Loc} {tv : TV Loc} (hm : IM m) (h : IT m tv) (n : Nat) (v : Int) (b : Bool) :
    IM (m.store tv (.data n) v b) ∧ IT (m.store tv (.data n) v b) (tv.bump m (.data n)) := by
  constructor
  · apply hm.append_data
    cases b
    · exact h.rel.bump n v _
    · exact h.cur.bump n v _
  · exact ⟨h.cur.bump .., h.acq.bump .., h.rel.append ..⟩

/-- A read-modify-write of a cell. -/
theorem rmw_data_inv {m : Mem Loc} {tv : TV Loc} (hm : IM m) (h : IT m tv) (n : Nat) (v : Int) (acq rel : Bool) :
    IM (m.append (.data n) v (rmwAnyView m tv (.data n) acq rel)) ∧
    IT (m.append (.data n) v (rmwAnyView m tv (.data n) acq rel)) (rmwAny tv m (.data n) acq) := by
  have h' := h.read_data hm (last_lt hm (.data n)) acq
  have hc := hm.closed (.data n) _ (last_lt hm (.data n))
  refine ⟨hm.append_data _ _ _ (Closed.sup ?_ (hc.append ..)), h'.cur.bump .., h'.acq.bump .., h'.rel.append ..⟩
  cases rel
  · exact h'.rel.bump n v _
  · exact h'.cur.bump n v _

/-- The view of a thread after it has changed `m_val`; it is also what the new message carries. -/
def wview (m : Mem Loc) (a : View Loc) : View Loc := fun x =>
  if x = .word then m.len .word else max (a x) (m.view .word (m.last .word) x)

theorem rmw_cur (m : Mem Loc) (tv : TV Loc) : (tv.rmw m .word).cur = wview m tv.cur := by
  funext x
  simp only [TV.rmw, TV.bump, TV.read, wview]
  by_cases e : x = .word
  · simp [e]
  · simp [e, single]

theorem rmw_acq (m : Mem Loc) (tv : TV Loc) : (tv.rmw m .word).acq = wview m tv.acq := by
  funext x
  simp only [TV.rmw, TV.bump, TV.read, wview]
  by_cases e : x = .word
  · simp [e]
  · simp [e, single]

theorem rmw_mem (m : Mem Loc) (tv : TV Loc) (v : Int) : m.rmw tv .word v = m.append .word v (wview m tv.cur) := by
  simp only [Mem.rmw]
  congr 1
  funext x
  simp only [TV.msg, TV.read, wview]
  by_cases e : x = .word
  · simp [e]
  · simp [e, single]

theorem le_wview {m : Mem Loc} {a : View Loc} (ha : Closed m a) (l : Loc) : a l ≤ wview m a l := by
  have := ha.lt l
  by_cases e : l = .word
  · subst e; simp only [wview, if_true]; omega
  · simp only [wview, if_neg e]; omega

theorem wview_closed {m : Mem Loc} (hm : IM m) {a b : View Loc} (ha : Closed m a) (hb : Closed m b)
    (h : ∀ l, a l ≤ b l) (v : Int) : Closed (m.append .word v (wview m a)) (wview m b) := by
  refine ⟨fun l => ?_, fun l => ?_⟩
  · by_cases e : l = .word
    · subst e; simp [wview, append_len_same]
    · rw [append_len_ne e]; simp only [wview, if_neg e]
      have h1 := hb.lt l
      have h2 := (hm.closed .word _ (last_lt hm .word)).lt l
      omega
  · have e : wview m b .word = m.len .word := by simp [wview]
    rw [e, append_view_new]
    have := h l
    simp only [wview]; split <;> omega

/-- A change of `m_val`. -/
theorem rmw_word_inv {m : Mem Loc} {tv : TV Loc} (hm : IM m) (h : IT m tv) (hca : ∀ l, tv.cur l ≤ tv.acq l) (v : Int) :
    IM (m.rmw tv .word v) ∧ IT (m.rmw tv .word v) (tv.rmw m .word) := by
  have hcur := wview_closed hm h.cur h.cur (fun _ => Nat.le_refl _) v
  rw [rmw_mem]
  refine ⟨⟨fun l => Nat.lt_of_lt_of_le (hm.pos l) append_len_le, ?_, ?_, ?_⟩, ?_, ?_, ?_⟩
  · intro i hi
    rw [append_len_same] at hi
    by_cases e : i = m.len .word
    · subst e; rw [append_view_new]; simp [wview]
    · rw [append_view_old (by omega)]; exact hm.self i (by omega)
  · intro i hi l
    rw [append_len_same] at hi
    by_cases e : i + 1 = m.len .word
    · rw [append_view_old (by omega), e, append_view_new]
      have ei : i = m.last .word := by simp only [Mem.last]; omega
      subst ei
      by_cases el : l = .word
      · subst el; rw [hm.self _ (by omega)]; simp only [wview, if_true]; omega
      · simp only [wview, if_neg el]; omega
    · rw [append_view_old (by omega), append_view_old (by omega)]; exact hm.chain i (by omega) l
  · intro l i hi
    by_cases e' : l = .word
    · subst e'
      rw [append_len_same] at hi
      by_cases ei : i = m.len .word
      · subst ei; rw [append_view_new]; exact hcur
      · rw [append_view_old (by omega)]; exact (hm.closed _ i (by omega)).append ..
    · rw [append_len_ne e'] at hi
      rw [append_view_old hi]; exact (hm.closed _ i hi).append ..
  · rw [rmw_cur]; exact hcur
  · rw [rmw_acq]; exact wview_closed hm h.cur h.acq hca v
  · exact h.rel.append ..

/-- Views: of memory and of all threads. -/
structure IV (s : St) : Prop where
  mem : IM s.mem
  tv : ∀ t, IT s.mem (s.tv t)
  ca : ∀ t l, (s.tv t).cur l ≤ (s.tv t).acq l

theorem IV.init (v : Nat → Int) : IV (St.init v) := by
  refine ⟨⟨fun l => by simp [St.init, Mem.init], ?_, ?_, ?_⟩, ?_, ?_⟩
  · intro i hi; simp [St.init, Mem.init] at hi ⊢; omega
  · intro i hi; simp [St.init, Mem.init] at hi
  · intro l i hi; exact ⟨fun l => by simp [St.init, Mem.init], fun l => by simp [St.init, Mem.init]⟩
  · intro t
    have : Closed (St.init v).mem fun _ => 0 := ⟨fun l => by simp [St.init, Mem.init], fun l => by simp [St.init, Mem.init]⟩
    exact ⟨this, this, this⟩
  · intro t l; exact Nat.le_refl _

theorem forall_upd {α : Type} {f : Nat → α} {t : Nat} {x : α} {p : α → Prop} (h : ∀ u, u ≠ t → p (f u)) (hx : p x) (u : Nat) :
    p (upd f t x u) := by
  by_cases e : u = t
  · subst e; rw [upd_same]; exact hx
  · rw [upd_ne _ _ e]; exact h u e

theorem read_ca {m : Mem Loc} {tv : TV Loc} (h : ∀ l, tv.cur l ≤ tv.acq l) (l : Loc) (i : Nat) (b : Bool) (x : Loc) :
    (tv.read m l i b).cur x ≤ (tv.read m l i b).acq x := by
  have := h x
  simp only [TV.read]; split <;> omega

theorem bump_ca {m : Mem Loc} {tv : TV Loc} (h : ∀ l, tv.cur l ≤ tv.acq l) (l : Loc) (x : Loc) :
    (tv.bump m l).cur x ≤ (tv.bump m l).acq x := by
  have := h x
  simp only [TV.bump]; split <;> omega

/-- A step of one thread that changes memory by appending a message. -/
theorem IV.put {s : St} (h : IV s) (t : Nat) (l : Loc) (v : Int) (w : View Loc) (tv' : TV Loc)
    (hm : IM (s.mem.append l v w)) (ht : IT (s.mem.append l v w) tv') (hc : ∀ l, tv'.cur l ≤ tv'.acq l) {s' : St}
    (e1 : s'.mem = s.mem.append l v w) (e2 : s'.tv = upd s.tv t tv') : IV s' := by
  refine ⟨e1 ▸ hm, ?_, ?_⟩
  · rw [e1, e2]; exact forall_upd (fun u _ => (h.tv u).append ..) ht
  · rw [e2]; exact forall_upd (p := fun tv : TV Loc => ∀ l, tv.cur l ≤ tv.acq l) (fun u _ => h.ca u) hc

/-- A step of one thread that only changes what it knows. -/
theorem IV.see {s : St} (h : IV s) (t : Nat) (tv' : TV Loc) (ht : IT s.mem tv') (hc : ∀ l, tv'.cur l ≤ tv'.acq l) {s' : St}
    (e1 : s'.mem = s.mem) (e2 : s'.tv = upd s.tv t tv') : IV s' := by
  refine ⟨e1 ▸ h.mem, ?_, ?_⟩
  · rw [e1, e2]; exact forall_upd (fun u _ => h.tv u) ht
  · rw [e2]; exact forall_upd (p := fun tv : TV Loc => ∀ l, tv.cur l ≤ tv.acq l) (fun u _ => h.ca u) hc

theorem IV.same {s : St} (h : IV s) {s' : St} (e1 : s'.mem = s.mem) (e2 : s'.tv = s.tv) : IV s' :=
  ⟨e1 ▸ h.mem, by rw [e1, e2]; exact h.tv, by rw [e2]; exact h.ca⟩

theorem IV.rmw {s : St} (h : IV s) (t : Nat) (f : Nat → Nat) (d : Nat) (p : Pc) : IV (s.rmw t f d p) := by
  have := rmw_word_inv h.mem (h.tv t) (h.ca t) (f s.val : Nat)
  exact h.put t .word _ _ _ this.1 this.2 (bump_ca (read_ca (h.ca t) _ _ _) _) rfl rfl

theorem IV.step {N t : Nat} {s s' : St} (h : IV s) (st : Step N t s s') : IV s' := by
  cases st
  case store n v b _ _ _ =>
    have := store_inv h.mem (h.tv t) n v b
    exact h.put t _ _ _ _ this.1 this.2 (bump_ca (h.ca t) _) rfl rfl
  case load n i b _ _ hr => exact h.see t _ ((h.tv t).read_data h.mem hr.2 b) (read_ca (h.ca t) _ _ _) rfl rfl
  case change n v acq rel _ _ =>
    have := rmw_data_inv h.mem (h.tv t) n v acq rel
    exact h.put t _ _ _ _ this.1 this.2 (bump_ca (read_ca (h.ca t) _ _ _) _) rfl rfl
  case fenceAcq _ _ =>
    have h' := h.tv t
    exact h.see t (s.tv t).fenceAcq ⟨h'.cur.join h'.acq, h'.acq, h'.rel⟩
      (fun l => by have := h.ca t l; simp only [TV.fenceAcq, Weak.join]; omega) rfl rfl
  case fenceRel _ _ =>
    have h' := h.tv t
    exact h.see t (s.tv t).fenceRel ⟨h'.cur, h'.acq, h'.cur⟩ (h.ca t) rfl rfl
  case prepare _ _ => exact (h.rmw t addWaiter 0 .idle).same rfl rfl
  case cancel => exact h.rmw ..
  case wait => exact h.same rfl rfl
  case look k aw i _ _ hr => exact h.see t _ ((h.tv t).read_word h.mem hr.2) (read_ca (h.ca t) _ _ _) rfl rfl
  case unblock => exact h.same rfl rfl
  case leave => exact h.rmw ..
  case notify => exact h.rmw ..
  case wakeAll => exact h.same rfl rfl
  case wakeOne => exact h.same rfl rfl
  case await => exact h.same rfl rfl
  case first i b _ _ hr => exact h.see t _ ((h.tv t).read_data h.mem hr.2 b) (read_ca (h.ca t) _ _ _) rfl rfl
  case awaitPrep => exact (h.rmw t addWaiter 0 .idle).same rfl rfl
  case check k i b _ _ hr => exact h.see t _ ((h.tv t).read_data h.mem hr.2 b) (read_ca (h.ca t) _ _ _) rfl rfl
  case cancelled => exact h.rmw ..

/-- What every step does to memory, and to what the threads know. -/
structure Grow (s s' : St) : Prop where
  len : ∀ l, s.mem.len l ≤ s'.mem.len l
  val : ∀ l i, i < s.mem.len l → s'.mem.val l i = s.mem.val l i
  view : ∀ l i, i < s.mem.len l → s'.mem.view l i = s.mem.view l i
  cnt : ∀ i, i < s.mem.len .word → s'.cnt i = s.cnt i
  cur : ∀ t l, (s.tv t).cur l ≤ (s'.tv t).cur l
  told : s.told ≤ s'.told

theorem Grow.refl (s : St) : Grow s s :=
  ⟨fun _ => Nat.le_refl _, fun _ _ _ => rfl, fun _ _ _ => rfl, fun _ _ => rfl, fun _ _ => Nat.le_refl _, Nat.le_refl _⟩

theorem Grow.trans {a b c : St} (h : Grow a b) (g : Grow b c) : Grow a c where
  len l := Nat.le_trans (h.len l) (g.len l)
  val l i hi := (g.val l i (Nat.lt_of_lt_of_le hi (h.len l))).trans (h.val l i hi)
  view l i hi := (g.view l i (Nat.lt_of_lt_of_le hi (h.len l))).trans (h.view l i hi)
  cnt i hi := (g.cnt i (Nat.lt_of_lt_of_le hi (h.len _))).trans (h.cnt i hi)
  cur t l := Nat.le_trans (h.cur t l) (g.cur t l)
  told := Nat.le_trans h.told g.told

theorem cur_upd {s : St} {t : Nat} {tv' : TV Loc} (h : ∀ l, (s.tv t).cur l ≤ tv'.cur l) (u : Nat) (l : Loc) :
    (s.tv u).cur l ≤ (upd s.tv t tv' u).cur l := by
  by_cases e : u = t
  · subst e; rw [upd_same]; exact h l
  · rw [upd_ne _ _ e]; exact Nat.le_refl _

theorem read_le (m : Mem Loc) (tv : TV Loc) (l : Loc) (i : Nat) (b : Bool) (x : Loc) : tv.cur x ≤ (tv.read m l i b).cur x := by
  simp only [TV.read]; omega

theorem bump_le {m : Mem Loc} {tv : TV Loc} (h : ∀ l, tv.cur l < m.len l) (l x : Loc) : tv.cur x ≤ (tv.bump m l).cur x := by
  have := h x
  simp only [TV.bump]; split
  · subst_vars; omega
  · exact Nat.le_refl _

theorem Grow.put {s s' : St} {t : Nat} {l : Loc} {v : Int} {w : View Loc} {tv' : TV Loc} (e1 : s'.mem = s.mem.append l v w)
    (e2 : s'.tv = upd s.tv t tv') (hc : ∀ l, (s.tv t).cur l ≤ tv'.cur l) (e3 : s'.told = s.told)
    (e4 : ∀ i, i < s.mem.len .word → s'.cnt i = s.cnt i) : Grow s s' where
  len x := by rw [e1]; exact append_len_le
  val x i hi := by rw [e1]; exact append_val_old hi
  view x i hi := by rw [e1]; exact append_view_old hi
  cnt := e4
  cur u x := by rw [e2]; exact cur_upd hc u x
  told := Nat.le_of_eq e3.symm

theorem Grow.see {s s' : St} {t : Nat} {tv' : TV Loc} (e1 : s'.mem = s.mem)
    (e2 : s'.tv = upd s.tv t tv') (hc : ∀ l, (s.tv t).cur l ≤ tv'.cur l) (e3 : s'.told = s.told)
    (e4 : s'.cnt = s.cnt) : Grow s s' where
  len x := by rw [e1]; exact Nat.le_refl _
  val x i hi := by rw [e1]
  view x i hi := by rw [e1]
  cnt i _ := by rw [e4]
  cur u x := by rw [e2]; exact cur_upd hc u x
  told := Nat.le_of_eq e3.symm

theorem Grow.same {s s' : St} (e1 : s'.mem = s.mem) (e2 : s'.tv = s.tv) (e3 : s.told ≤ s'.told) (e4 : s'.cnt = s.cnt) : Grow s s' where
  len x := by rw [e1]; exact Nat.le_refl _
  val x i hi := by rw [e1]
  view x i hi := by rw [e1]
  cnt i _ := by rw [e4]
  cur u x := by rw [e2]; exact Nat.le_refl _
  told := e3

theorem rmw_le {m : Mem Loc} {tv : TV Loc} (h : ∀ l, tv.cur l < m.len l) (hl : Loc) (x : Loc) :
    tv.cur x ≤ (tv.rmw m hl).cur x := by
  have := h x
  simp only [TV.rmw, TV.bump, TV.read]; split
  · subst_vars; omega
  · omega

theorem rmwAny_le {m : Mem Loc} {tv : TV Loc} (h : ∀ l, tv.cur l < m.len l) (hl : Loc) (acq : Bool) (x : Loc) :
    tv.cur x ≤ (rmwAny tv m hl acq).cur x := by
  have := h x
  simp only [rmwAny, TV.bump, TV.read]; split
  · subst_vars; omega
  · omega

theorem Grow.rmw {s : St} (h : IV s) (t : Nat) (f : Nat → Nat) (d : Nat) (p : Pc) : Grow s (s.rmw t f d p) :=
  .put (tv' := (s.tv t).rmw s.mem .word) rfl rfl (rmw_le (h.tv t).cur.lt _) rfl
    fun i hi => upd_ne _ _ (by omega)

theorem grow_step {N t : Nat} {s s' : St} (h : IV s) (st : Step N t s s') : Grow s s' := by
  cases st
  case store n v b _ _ _ => exact .put rfl rfl (bump_le (h.tv t).cur.lt _) rfl fun _ _ => rfl
  case load n i b _ _ hr => exact .see rfl rfl (read_le _ _ _ _ _) rfl rfl
  case change n v acq rel _ _ =>
    exact .put (tv' := rmwAny (s.tv t) s.mem (.data n) acq) rfl rfl (rmwAny_le (h.tv t).cur.lt _ _) rfl fun _ _ => rfl
  case fenceAcq _ _ => exact .see (t := t) rfl rfl (fun l => by simp only [TV.fenceAcq, Weak.join]; omega) rfl rfl
  case fenceRel _ _ => exact .see (t := t) rfl rfl (fun l => Nat.le_refl _) rfl rfl
  case prepare _ _ => exact (Grow.rmw h t addWaiter 0 .idle).trans (.same rfl rfl (Nat.le_refl _) rfl)
  case cancel => exact Grow.rmw h ..
  case wait => exact .same rfl rfl (Nat.le_refl _) rfl
  case look k aw i _ _ hr => exact .see rfl rfl (read_le _ _ _ _ _) rfl rfl
  case unblock => exact .same rfl rfl (Nat.le_refl _) rfl
  case leave => exact Grow.rmw h ..
  case notify => exact Grow.rmw h ..
  case wakeAll => exact .same rfl rfl (Nat.le_max_left _ _) rfl
  case wakeOne => exact .same rfl rfl (Nat.le_refl _) rfl
  case await => exact .same rfl rfl (Nat.le_refl _) rfl
  case first i b _ _ hr => exact .see rfl rfl (read_le _ _ _ _ _) rfl rfl
  case awaitPrep => exact (Grow.rmw h t addWaiter 0 .idle).trans (.same rfl rfl (Nat.le_refl _) rfl)
  case check k i b _ _ hr => exact .see (t := t) rfl rfl (read_le _ _ _ _ _) rfl rfl
  case cancelled => exact Grow.rmw h ..

theorem iv_reach {N : Nat} {s : St} (h : Reach N s) : IV s := by
  induction h with
  | init v => exact .init v
  | step _ st ih => exact ih.step st

end Verif.Weak.Ev
