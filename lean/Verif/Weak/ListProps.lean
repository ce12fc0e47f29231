import Verif.Weak.ListModel
import Verif.List.Props

/-! C47: the submission list is correct under the C++ memory model. -/
namespace Verif.Weak.WList
open Verif

theorem upd_same {α : Type} (f : Nat → α) (i : Nat) (v : α) : upd f i v i = v := by simp [upd]
theorem upd_ne {α : Type} (f : Nat → α) {i j : Nat} (v : α) (h : j ≠ i) : upd f i v j = f j := by simp [upd, h]

/-! ### Refinement of the sequentially consistent model -/

def NodePc.erase : NodePc → IList.NodePc
  | .raw => .raw | .fresh _ => .fresh | .loaded _ h => .loaded h | .linked _ h => .linked h
  | .inList => .inList | .taken => .taken | .given => .given

/-- The sequentially consistent state: every location has its last value. -/
def abs (s : St) : IList.St :=
  { next := fun n => s.val (.next n), data := fun n => s.val (.data n), head := s.val .head, pc := fun n => (s.pc n).erase,
    cons := s.cons, pushed := s.pushed, handed := s.handed }

theorem val_append (m : Mem Loc) (l : Loc) (v : Int) (w : View Loc) (x : Loc) :
    (m.append l v w).val x ((m.append l v w).last x) = if x = l then v else m.val x (m.last x) := by
  by_cases e : x = l
  · subst e; simp [Mem.append, Mem.last]
  · simp [Mem.append, Mem.last, e]

theorem val_write (s : St) (t : Nat) (l : Loc) (v : Nat) (x : Loc) : (s.write t l v).val x = if x = l then v else s.val x := by
  show ((s.mem.append l _ _).val x ((s.mem.append l _ _).last x)).toNat = _
  rw [val_append]; split <;> simp [St.val]

theorem val_cas (s : St) (t n : Nat) (x : Loc) : (s.cas t n).val x = if x = .head then n else s.val x := by
  show ((s.mem.append .head _ _).val x ((s.mem.append .head _ _).last x)).toNat = _
  rw [val_append]; split <;> simp [St.val]

theorem val_xchg (s : St) (x : Loc) : s.xchg.val x = if x = .head then 0 else s.val x := by
  show ((s.mem.append .head _ _).val x ((s.mem.append .head _ _).last x)).toNat = _
  rw [val_append]; split <;> simp [St.val]

theorem erase_upd (f : Nat → NodePc) (n : Nat) (p : NodePc) :
    (fun k => (upd f n p k).erase) = IList.upd (fun k => (f k).erase) n p.erase := by
  funext k; by_cases e : k = n <;> simp [upd, IList.upd, e]

theorem ieq {a b : IList.St} (h1 : a.next = b.next) (h2 : a.data = b.data) (h3 : a.head = b.head) (h4 : a.pc = b.pc)
    (h5 : a.cons = b.cons) (h6 : a.pushed = b.pushed) (h7 : a.handed = b.handed) : a = b := by
  cases a; cases b; simp_all

theorem step_of {a b c : IList.St} (h : IList.Step a b) (h1 : c.next = b.next) (h2 : c.data = b.data) (h3 : c.head = b.head)
    (h4 : c.pc = b.pc) (h5 : c.cons = b.cons) (h6 : c.pushed = b.pushed) (h7 : c.handed = b.handed) : IList.Step a c := by
  rw [ieq h1 h2 h3 h4 h5 h6 h7]; exact h

/-- Every step is a step of the sequentially consistent model, or leaves its state as it is. -/
theorem abs_step {s s' : St} (st : Step s s') : IList.Step (abs s) (abs s') ∨ abs s' = abs s := by
  cases st with
  | learn t w hv => exact .inr rfl
  | cell t k v hk =>
    right
    refine ieq ?_ ?_ ?_ rfl rfl rfl rfl
    · funext n; exact (val_write ..).trans (if_neg nofun)
    · funext n; exact (val_write ..).trans (if_neg nofun)
    · exact (val_write ..).trans (if_neg nofun)
  | construct t n d hn hp h1 h2 =>
    left
    have := IList.Step.construct (abs s) n d hn (by simp [abs, hp, NodePc.erase])
    refine step_of this ?_ ?_ ?_ ?_ rfl rfl rfl
    · funext k
      refine (((val_write ..).trans (if_neg nofun)).trans ((val_write ..).trans ?_))
      by_cases e : k = n <;> simp [IList.upd, abs, e]
    · funext k
      refine ((val_write ..).trans ?_)
      by_cases e : k = n
      · subst e; simp [IList.upd]
      · rw [if_neg (by simpa using e)]
        refine ((val_write ..).trans (if_neg nofun)).trans ?_
        simp [IList.upd, abs, e]
    · exact (((val_write ..).trans (if_neg nofun)).trans ((val_write ..).trans (if_neg nofun)))
    · exact (erase_upd ..)
  | load t n i hp hr =>
    left
    have := IList.Step.load (abs s) n (s.mem.val .head i).toNat (by simp [abs, hp, NodePc.erase])
    exact step_of this rfl rfl rfl (erase_upd ..) rfl rfl rfl
  | link t n h hp hk =>
    left
    have := IList.Step.link (abs s) n h (by simp [abs, hp, NodePc.erase])
    refine step_of this ?_ ?_ ?_ (erase_upd ..) rfl rfl rfl
    · funext k
      refine ((val_write ..).trans ?_)
      by_cases e : k = n <;> simp [IList.upd, abs, e]
    · funext k; exact ((val_write ..).trans (if_neg nofun))
    · exact ((val_write ..).trans (if_neg nofun))
  | linkRace => exact .inr rfl
  | casOk t n h hp hh =>
    left
    have := IList.Step.casOk (abs s) n h (by simp [abs, hp, NodePc.erase]) hh
    refine step_of this ?_ ?_ ?_ (erase_upd ..) rfl rfl rfl
    · funext k; exact ((val_cas ..).trans (if_neg nofun))
    · funext k; exact ((val_cas ..).trans (if_neg nofun))
    · exact ((val_cas ..).trans (if_pos rfl))
  | casFail t n h i hp hr =>
    left
    have := IList.Step.casFail (abs s) n h (s.mem.val .head i).toNat (by simp [abs, hp, NodePc.erase])
    exact step_of this rfl rfl rfl (erase_upd ..) rfl rfl rfl
  | exchange hc =>
    left
    have := IList.Step.exchange (abs s) hc
    refine step_of this ?_ ?_ ?_ ?_ rfl rfl rfl
    · funext k; exact ((val_xchg ..).trans (if_neg nofun))
    · funext k; exact ((val_xchg ..).trans (if_neg nofun))
    · exact ((val_xchg ..).trans (if_pos rfl))
    · funext k
      show NodePc.erase (if s.pc k = .inList then .taken else s.pc k) = (if (s.pc k).erase = _ then _ else (s.pc k).erase)
      cases s.pc k <;> simp [NodePc.erase]
  | revStep l f hc hl hk =>
    left
    have := IList.Step.revStep (abs s) l f hc hl
    refine step_of this ?_ ?_ ?_ rfl rfl rfl rfl
    · funext k
      refine ((val_write ..).trans ?_)
      by_cases e : k = l <;> simp [IList.upd, abs, e]
    · funext k; exact ((val_write ..).trans (if_neg nofun))
    · exact ((val_write ..).trans (if_neg nofun))
  | revRace => exact .inr rfl
  | revDone f hc => exact .inl (.revDone (abs s) f hc)
  | readNext r hc hr hk => exact .inl (.readNext (abs s) r hc hr)
  | readRace => exact .inr rfl
  | invoke r nx hc hk =>
    left
    have := IList.Step.invoke (abs s) r nx hc
    refine step_of this ?_ ?_ ?_ (erase_upd ..) rfl rfl rfl
    · funext k; exact ((val_write ..).trans (if_neg nofun))
    · funext k; exact ((val_write ..).trans (if_neg nofun))
    · exact ((val_write ..).trans (if_neg nofun))
  | invokeRace => exact .inr rfl
  | walkDone hc => exact .inl (.walkDone (abs s) hc)
  | destroy t n v d hp h1 h2 h3 =>
    left
    have := IList.Step.destroy (abs s) n v d (by simp [abs, hp, NodePc.erase])
    refine step_of this ?_ ?_ ?_ ?_ rfl rfl rfl
    · funext k
      refine (((val_write ..).trans (if_neg nofun)).trans ((val_write ..).trans ?_))
      by_cases e : k = n <;> simp [IList.upd, abs, e]
    · funext k
      refine ((val_write ..).trans ?_)
      by_cases e : k = n
      · subst e; simp [IList.upd]
      · rw [if_neg (by simpa using e)]
        refine ((val_write ..).trans (if_neg nofun)).trans ?_
        simp [IList.upd, abs, e]
    · exact (((val_write ..).trans (if_neg nofun)).trans ((val_write ..).trans (if_neg nofun)))
    · exact (erase_upd ..)

/-- **C47, refinement.** Under the C++ memory model the list behaves as under sequential consistency: every execution is
one of the model of C05. -/
theorem refines {s : St} (h : Reach s) : IList.Reach (abs s) := by
  induction h with
  | init next data cell => exact .init _ _
  | step _ st ih =>
    rcases abs_step st with h | h
    · exact ih.step h
    · rw [h]; exact ih

/-- **C47, order.** What the consumer's function was given is an initial part of the sequence of pushes in the order in which they took
effect. -/
theorem handed_in_order {s : St} (h : Reach s) : s.handed <+: s.pushed := IList.handed_in_order (refines h)

/-- **C47, nothing is lost.** When the consumer is outside and the last message of the head is null, every push that took effect
has been handed over. -/
theorem nothing_lost {s : St} (h : Reach s) (hc : s.cons = .idle) (hh : s.val .head = 0) : s.handed = s.pushed :=
  IList.nothing_lost (refines h) hc hh

/-! ### No races -/

/-- Views refer to existing messages. -/
structure IV (s : St) : Prop where
  pos : ∀ l, 0 < s.mem.len l
  msg : ∀ l i, i < s.mem.len l → s.mem.Valid (s.mem.view l i)
  cur : ∀ t, s.mem.Valid (s.tv t).cur
  acq : ∀ t, s.mem.Valid (s.tv t).acq
  rel : ∀ t, s.mem.Valid (s.tv t).rel

theorem append_len_le (m : Mem Loc) (l x : Loc) (v : Int) (w : View Loc) : m.len x ≤ (m.append l v w).len x := by
  simp only [Mem.append]; split
  · subst_vars; omega
  · exact Nat.le_refl _

theorem append_len_same (m : Mem Loc) (l : Loc) (v : Int) (w : View Loc) : (m.append l v w).len l = m.len l + 1 := by
  simp [Mem.append]

theorem append_len_ne (m : Mem Loc) {l x : Loc} (v : Int) (w : View Loc) (h : x ≠ l) : (m.append l v w).len x = m.len x := by
  simp [Mem.append, h]

theorem valid_append {m : Mem Loc} {a : View Loc} (h : m.Valid a) (l : Loc) (v : Int) (w : View Loc) : (m.append l v w).Valid a :=
  fun x => Nat.lt_of_lt_of_le (h x) (append_len_le ..)

theorem valid_join {m : Mem Loc} {a b : View Loc} (ha : m.Valid a) (hb : m.Valid b) : m.Valid (Weak.join a b) := fun x => by
  have := ha x; have := hb x; simp only [Weak.join]; omega

/-- Adding the position of the new message. -/
theorem valid_bump {m : Mem Loc} {a : View Loc} (h : m.Valid a) (l : Loc) (v : Int) (w : View Loc) :
    (m.append l v w).Valid fun x => if x = l then m.len l else a x := fun x => by
  by_cases e : x = l
  · subst e; rw [append_len_same]; simp
  · rw [append_len_ne _ _ _ e]; simp only [if_neg e]; exact h x

theorem valid_msg {m : Mem Loc} {tv : TV Loc} (hc : m.Valid tv.cur) (hr : m.Valid tv.rel) (l : Loc) (v : Int) (w : View Loc) (b : Bool) :
    (m.append l v w).Valid (tv.msg l (m.len l) b) := by
  cases b
  · exact valid_bump hr l v w
  · exact valid_bump hc l v w

theorem valid_read {m : Mem Loc} {tv : TV Loc} (hm : ∀ l i, i < m.len l → m.Valid (m.view l i)) (hc : m.Valid tv.cur) {l : Loc} {i : Nat}
    (hi : i < m.len l) (b : Bool) : m.Valid (tv.read m l i b).cur := fun x => by
  have h1 := hc x
  have h2 := hm l i hi x
  have h3 : single l i x < m.len x := by
    by_cases e : x = l
    · subst e; simp only [single, if_true]; exact hi
    · simp only [single, if_neg e]; omega
  simp only [TV.read]; split <;> omega

theorem valid_read_acq {m : Mem Loc} {tv : TV Loc} (hm : ∀ l i, i < m.len l → m.Valid (m.view l i)) (hc : m.Valid tv.acq) {l : Loc} {i : Nat}
    (hi : i < m.len l) (b : Bool) : m.Valid (tv.read m l i b).acq := fun x => by
  have h1 := hc x
  have h2 := hm l i hi x
  have h3 : single l i x < m.len x := by
    by_cases e : x = l
    · subst e; simp only [single, if_true]; exact hi
    · simp only [single, if_neg e]; omega
  simp only [TV.read]; omega

theorem forall_upd {α : Type} {f : Nat → α} {t : Nat} {x : α} {p : α → Prop} (h : ∀ u, p (f u)) (hx : p x) (u : Nat) :
    p (upd f t x u) := by
  by_cases e : u = t
  · subst e; rw [upd_same]; exact hx
  · rw [upd_ne _ _ e]; exact h u

theorem IV.put {s s' : St} (h : IV s) (t : Nat) (l : Loc) (v : Int) (w : View Loc) (tv' : TV Loc) (hw : (s.mem.append l v w).Valid w)
    (h1 : (s.mem.append l v w).Valid tv'.cur) (h2 : (s.mem.append l v w).Valid tv'.acq) (h3 : (s.mem.append l v w).Valid tv'.rel)
    (e1 : s'.mem = s.mem.append l v w) (e2 : s'.tv = upd s.tv t tv') : IV s' := by
  refine ⟨?_, ?_, ?_, ?_, ?_⟩ <;> rw [e1]
  · exact fun x => Nat.lt_of_lt_of_le (h.pos x) (append_len_le ..)
  · intro x i hi
    by_cases e : x = l ∧ i = s.mem.len l
    · have : (s.mem.append l v w).view x i = w := by simp [Mem.append, e]
      rw [this]; exact hw
    · have e' : (s.mem.append l v w).view x i = s.mem.view x i := by simp only [Mem.append, if_neg e]
      rw [e']
      refine valid_append (h.msg x i ?_) _ _ _
      by_cases ex : x = l
      · subst ex; rw [append_len_same] at hi; have : i ≠ s.mem.len x := fun he => e ⟨rfl, he⟩
        omega
      · rwa [append_len_ne _ _ _ ex] at hi
  · rw [e2]; exact forall_upd (p := fun tv : TV Loc => Mem.Valid _ tv.cur) (fun u => valid_append (h.cur u) _ _ _) h1
  · rw [e2]; exact forall_upd (p := fun tv : TV Loc => Mem.Valid _ tv.acq) (fun u => valid_append (h.acq u) _ _ _) h2
  · rw [e2]; exact forall_upd (p := fun tv : TV Loc => Mem.Valid _ tv.rel) (fun u => valid_append (h.rel u) _ _ _) h3

theorem IV.see {s s' : St} (h : IV s) (t : Nat) (tv' : TV Loc)
    (h1 : s.mem.Valid tv'.cur) (h2 : s.mem.Valid tv'.acq) (h3 : s.mem.Valid tv'.rel)
    (e1 : s'.mem = s.mem) (e2 : s'.tv = upd s.tv t tv') : IV s' := by
  refine ⟨?_, ?_, ?_, ?_, ?_⟩ <;> rw [e1]
  · exact h.pos
  · exact h.msg
  · rw [e2]; exact forall_upd (p := fun tv : TV Loc => Mem.Valid _ tv.cur) h.cur h1
  · rw [e2]; exact forall_upd (p := fun tv : TV Loc => Mem.Valid _ tv.acq) h.acq h2
  · rw [e2]; exact forall_upd (p := fun tv : TV Loc => Mem.Valid _ tv.rel) h.rel h3

theorem IV.same {s s' : St} (h : IV s) (e1 : s'.mem = s.mem) (e2 : s'.tv = s.tv) : IV s' := by
  refine ⟨?_, ?_, ?_, ?_, ?_⟩ <;> rw [e1] <;> try rw [e2]
  · exact h.pos
  · exact h.msg
  · exact h.cur
  · exact h.acq
  · exact h.rel

theorem IV.write {s : St} (h : IV s) (t : Nat) (l : Loc) (v : Nat) : IV (s.write t l v) :=
  h.put t l v _ ((s.tv t).bump s.mem l) (valid_msg (h.cur t) (h.rel t) _ _ _ _) (valid_bump (h.cur t) _ _ _) (valid_bump (h.acq t) _ _ _) (valid_append (h.rel t) _ _ _) rfl rfl

theorem IV.peek {s : St} (h : IV s) (t i : Nat) (hi : i < s.mem.len .head) : IV (s.peek t i) :=
  h.see t _ (valid_read h.msg (h.cur t) hi _) (valid_read_acq h.msg (h.acq t) hi _) (h.rel t) rfl rfl

theorem last_lt {s : St} (h : IV s) (l : Loc) : s.mem.last l < s.mem.len l := by
  have := h.pos l; simp only [Mem.last]; omega

theorem IV.cas {s : St} (h : IV s) (t n : Nat) : IV (s.cas t n) :=
  h.put t .head n _ ((s.tv t).rmwRel s.mem .head) (valid_join (valid_msg (h.cur t) (h.rel t) _ _ _ _) (valid_append (h.msg _ _ (last_lt h _)) _ _ _))
    (valid_bump (valid_read h.msg (h.cur t) (last_lt h _) _) _ _ _) (valid_bump (valid_read_acq h.msg (h.acq t) (last_lt h _) _) _ _ _)
    (valid_append (h.rel t) _ _ _) rfl rfl

theorem IV.xchg {s : St} (h : IV s) : IV s.xchg :=
  h.put 0 .head 0 _ ((s.tv 0).rmw s.mem .head) (valid_join (valid_msg (h.cur 0) (h.rel 0) _ _ _ _) (valid_append (h.msg _ _ (last_lt h _)) _ _ _))
    (valid_bump (valid_read h.msg (h.cur 0) (last_lt h _) _) _ _ _) (valid_bump (valid_read_acq h.msg (h.acq 0) (last_lt h _) _) _ _ _)
    (valid_append (h.rel 0) _ _ _) rfl rfl

theorem IV.step {s s' : St} (h : IV s) (st : Step s s') : IV s' := by
  cases st with
  | learn t w hv => exact h.see t { s.tv t with cur := Weak.join (s.tv t).cur w, acq := Weak.join (s.tv t).acq w } (valid_join (h.cur t) hv) (valid_join (h.acq t) hv) (h.rel t) rfl rfl
  | cell t k v hk => exact h.write ..
  | construct t n d hn hp h1 h2 => exact ((h.write t (.next n) 0).write t (.data n) d).same rfl rfl
  | load t n i hp hr => exact (h.peek t i hr.2).same rfl rfl
  | link t n x hp hk => exact (h.write t (.next n) x).same rfl rfl
  | linkRace => exact h.same rfl rfl
  | casOk t n x hp hh => exact (h.cas t n).same rfl rfl
  | casFail t n x i hp hr => exact (h.peek t i hr.2).same rfl rfl
  | exchange hc => exact h.xchg.same rfl rfl
  | revStep l f hc hl hk => exact (h.write 0 (.next l) f).same rfl rfl
  | revRace => exact h.same rfl rfl
  | revDone => exact h.same rfl rfl
  | readNext => exact h.same rfl rfl
  | readRace => exact h.same rfl rfl
  | invoke r nx hc hk => exact (h.write 0 (.fin r) 0).same rfl rfl
  | invokeRace => exact h.same rfl rfl
  | walkDone => exact h.same rfl rfl
  | destroy t n v d hp h1 h2 h3 => exact ((h.write t (.next n) v).write t (.data n) d).same rfl rfl

/-- A view that knows the last messages of `m_next` and `m_data` of node `n`. -/
def Owns (m : Mem Loc) (w : View Loc) (n : Nat) : Prop := m.last (.next n) ≤ w (.next n) ∧ m.last (.data n) ≤ w (.data n)

/-- Who knows the plain members of a node. -/
def ND (s : St) (n : Nat) : Prop :=
  match s.pc n with
  | .fresh t | .loaded t _ | .linked t _ => Owns s.mem (s.tv t).cur n
  | .inList => Owns s.mem (s.pv n) n ∧ ∀ l, s.pv n l ≤ s.mem.view .head (s.mem.last .head) l
  | .taken => Owns s.mem (s.tv 0).cur n ∧ ∀ l, s.pv n l ≤ (s.tv 0).cur l
  | .raw | .given => True

/-- A step that does not touch the node. -/
theorem ND.keep {s s' : St} {n : Nat} (h : ND s n) (e1 : s'.pc n = s.pc n) (e2 : s'.pv n = s.pv n)
    (e3 : s'.mem.last (.next n) = s.mem.last (.next n)) (e4 : s'.mem.last (.data n) = s.mem.last (.data n))
    (g : ∀ t l, (s.tv t).cur l ≤ (s'.tv t).cur l)
    (e5 : ∀ l, s.mem.view .head (s.mem.last .head) l ≤ s'.mem.view .head (s'.mem.last .head) l) : ND s' n := by
  unfold ND at *
  rw [e1]
  cases hp : s.pc n <;> rw [hp] at h <;> simp only [Owns, e2, e3, e4] at h ⊢
  case fresh t => exact ⟨Nat.le_trans h.1 (g _ _), Nat.le_trans h.2 (g _ _)⟩
  case loaded t _ => exact ⟨Nat.le_trans h.1 (g _ _), Nat.le_trans h.2 (g _ _)⟩
  case linked t _ => exact ⟨Nat.le_trans h.1 (g _ _), Nat.le_trans h.2 (g _ _)⟩
  case inList => exact ⟨h.1, fun l => Nat.le_trans (h.2 l) (e5 l)⟩
  case taken => exact ⟨⟨Nat.le_trans h.1.1 (g _ _), Nat.le_trans h.1.2 (g _ _)⟩, fun l => Nat.le_trans (h.2 l) (g _ _)⟩

theorem cur_upd {s : St} {t : Nat} {tv' : TV Loc} (h : ∀ l, (s.tv t).cur l ≤ tv'.cur l) (u : Nat) (l : Loc) :
    (s.tv u).cur l ≤ (upd s.tv t tv' u).cur l := by
  by_cases e : u = t
  · subst e; rw [upd_same]; exact h l
  · rw [upd_ne _ _ e]; exact Nat.le_refl _

theorem write_cur {s : St} (h : IV s) (t : Nat) (l : Loc) (v u : Nat) (x : Loc) : (s.tv u).cur x ≤ ((s.write t l v).tv u).cur x := by
  refine cur_upd (fun x => ?_) u x
  have := h.cur t x
  simp only [TV.bump]; split
  · subst_vars; omega
  · exact Nat.le_refl _

theorem write_last_ne (s : St) (t : Nat) {l x : Loc} (v : Nat) (e : x ≠ l) : (s.write t l v).mem.last x = s.mem.last x := by
  simp [St.write, Mem.store, Mem.append, Mem.last, e]

theorem write_view_head (s : St) (t : Nat) {l : Loc} (v : Nat) (e : Loc.head ≠ l) (x : Loc) :
    (s.write t l v).mem.view .head ((s.write t l v).mem.last .head) x = s.mem.view .head (s.mem.last .head) x := by
  rw [write_last_ne s t v e]; simp [St.write, Mem.store, Mem.append, e]

theorem write_own (s : St) (t : Nat) (l : Loc) (v : Nat) : (s.write t l v).mem.last l ≤ ((s.write t l v).tv t).cur l := by
  show (s.mem.append l _ _).last l ≤ (upd s.tv t _ t).cur l
  rw [upd_same]; simp [Mem.last, Mem.append, TV.bump]

theorem peek_cur (s : St) (t i u : Nat) (x : Loc) : (s.tv u).cur x ≤ ((s.peek t i).tv u).cur x :=
  cur_upd (fun x => by simp only [TV.read]; omega) u x

theorem cas_cur {s : St} (h : IV s) (t n u : Nat) (x : Loc) : (s.tv u).cur x ≤ ((s.cas t n).tv u).cur x := by
  refine cur_upd (fun x => ?_) u x
  have := h.cur t x
  simp only [TV.rmwRel, TV.bump, TV.read]; split
  · subst_vars; omega
  · omega

theorem cas_last (s : St) (t n : Nat) {x : Loc} (e : x ≠ .head) : (s.cas t n).mem.last x = s.mem.last x := by
  simp [St.cas, Mem.rmwRel, Mem.append, Mem.last, e]

theorem cas_view (s : St) (t n : Nat) (x : Loc) :
    (s.cas t n).mem.view .head ((s.cas t n).mem.last .head) x =
      max (if x = .head then s.mem.len .head else (s.tv t).cur x) (s.mem.view .head (s.mem.last .head) x) := by
  simp [St.cas, Mem.rmwRel, Mem.append, Mem.last, Weak.join, TV.msg]

theorem xchg_last (s : St) {x : Loc} (e : x ≠ .head) : s.xchg.mem.last x = s.mem.last x := by
  simp [St.xchg, Mem.append, Mem.last, e]

theorem xchg_view (s : St) (x : Loc) :
    s.mem.view .head (s.mem.last .head) x ≤ s.xchg.mem.view .head (s.xchg.mem.last .head) x := by
  have : s.xchg.mem.view .head (s.xchg.mem.last .head) x =
      max (if x = .head then s.mem.len .head else (s.tv 0).rel x) (s.mem.view .head (s.mem.last .head) x) := by
    simp [St.xchg, Mem.append, Mem.last, Weak.join, TV.msg]
  omega

theorem xchg_cur {s : St} (h : IV s) (u : Nat) (x : Loc) : (s.tv u).cur x ≤ (s.xchg.tv u).cur x := by
  refine cur_upd (fun x => ?_) u x
  have := h.cur 0 x
  simp only [TV.rmw, TV.bump, TV.read]; split
  · subst_vars; omega
  · omega

/-- The exchange acquires what the last message of the head carries. -/
theorem xchg_acquires {s : St} (h : IV s) (x : Loc) : s.mem.view .head (s.mem.last .head) x ≤ (s.xchg.tv 0).cur x := by
  have := h.msg .head _ (last_lt h .head) x
  show _ ≤ (upd s.tv 0 ((s.tv 0).rmw s.mem .head) 0).cur x
  rw [upd_same]
  simp only [TV.rmw, TV.bump, TV.read]; split
  · subst_vars; omega
  · simp only [if_true]; omega

theorem two_writes {s : St} (h : IV s) (t n a b : Nat) :
    Owns ((s.write t (.next n) a).write t (.data n) b).mem (((s.write t (.next n) a).write t (.data n) b).tv t).cur n := by
  refine ⟨?_, write_own ..⟩
  rw [write_last_ne _ _ _ (by simp)]
  exact Nat.le_trans (write_own s t (.next n) a) (write_cur (h.write ..) ..)

theorem ND.two_writes {s : St} {n k : Nat} (h : ND s k) (hv : IV s) (t a b : Nat) (hk : k ≠ n) :
    ND ((s.write t (.next n) a).write t (.data n) b) k := by
  refine (h.keep (s' := s.write t (.next n) a) rfl rfl ?_ ?_ (fun _ _ => write_cur hv ..) ?_).keep rfl rfl ?_ ?_ (fun _ _ => write_cur (hv.write ..) ..) ?_
  · exact write_last_ne _ _ _ (by simpa using hk)
  · exact write_last_ne _ _ _ (by simp)
  · exact fun l => Nat.le_of_eq (write_view_head s t a (by simp) l).symm
  · exact write_last_ne _ _ _ (by simp)
  · exact write_last_ne _ _ _ (by simpa using hk)
  · exact fun l => Nat.le_of_eq (write_view_head _ t b (by simp) l).symm

/-- What the consumer is about to touch has been taken. -/
theorem taken_of {s : St} (h : Reach s) :
    (∀ l f, s.cons = .rev l f → l ≠ 0 → s.pc l = .taken) ∧ (∀ r, s.cons = .walk r → r ≠ 0 → s.pc r = .taken) ∧
    ∀ r nx, s.cons = .call r nx → s.pc r = .taken := by
  obtain ⟨L, B, hi⟩ := IList.reach_inv (refines h)
  have key : ∀ n, n ∈ B → s.pc n = .taken := by
    intro n hn
    have : (s.pc n).erase = .taken := (hi.tak n).2 hn
    revert this; cases s.pc n <;> simp [NodePc.erase]
  have hh := hi.holds
  have hc : (abs s).cons = s.cons := rfl
  rw [hc] at hh
  refine ⟨?_, ?_, ?_⟩
  · intro l f e hl
    rw [e] at hh
    obtain ⟨X, Y, h1, h2, rfl⟩ := hh
    obtain ⟨X', rfl, -⟩ := h1.ne hl
    exact key l (by simp)
  · intro r e hr
    rw [e] at hh
    obtain ⟨Y, rfl, -⟩ := IList.Chain.ne hh hr
    exact key r (by simp)
  · intro r nx e
    rw [e] at hh
    obtain ⟨Y, -, rfl⟩ := hh
    exact key r (by simp)

theorem nd_step {s s' : St} (r : Reach s) (hv : IV s) (h : ∀ n, ND s n) (st : Step s s') (k : Nat) : ND s' k := by
  have hk := h k
  have same : ∀ {x y : Nat}, x = y → x ≤ y := fun e => Nat.le_of_eq e
  cases st with
  | learn t w hw =>
    exact hk.keep rfl rfl rfl rfl (fun u l => cur_upd (tv' := { s.tv t with cur := Weak.join (s.tv t).cur w, acq := _ })
      (fun l => Nat.le_max_left _ _) u l) fun _ => Nat.le_refl _
  | cell t c v _ =>
    exact hk.keep rfl rfl (write_last_ne _ _ _ (by simp)) (write_last_ne _ _ _ (by simp)) (fun _ _ => write_cur hv ..)
      fun l => same (write_view_head s t v (by simp) l).symm
  | construct t n d hn hp h1 h2 =>
    by_cases e : k = n
    · subst e
      have := two_writes hv t k 0 d
      simp only [ND, upd_same]; exact this
    · exact (hk.two_writes hv t 0 d e).keep (upd_ne _ _ e) rfl rfl rfl (fun _ _ => Nat.le_refl _) fun _ => Nat.le_refl _
  | load t n i hp hr =>
    by_cases e : k = n
    · subst e
      unfold ND at hk; rw [hp] at hk
      simp only [ND, upd_same]
      exact ⟨Nat.le_trans hk.1 (peek_cur ..), Nat.le_trans hk.2 (peek_cur ..)⟩
    · exact hk.keep (upd_ne _ _ e) rfl rfl rfl (peek_cur s t i) fun _ => Nat.le_refl _
  | link t n x hp _ =>
    by_cases e : k = n
    · subst e
      unfold ND at hk; rw [hp] at hk
      simp only [ND, upd_same]
      refine ⟨write_own .., ?_⟩
      rw [write_last_ne _ _ _ (by simp)]
      exact Nat.le_trans hk.2 (write_cur hv ..)
    · exact hk.keep (upd_ne _ _ e) rfl (write_last_ne _ _ _ (by simpa using e)) (write_last_ne _ _ _ (by simp)) (fun _ _ => write_cur hv _ _ x _ _)
        fun l => same (write_view_head s t x (by simp) l).symm
  | linkRace => exact hk.keep rfl rfl rfl rfl (fun _ _ => Nat.le_refl _) fun _ => Nat.le_refl _
  | casOk t n x hp hh =>
    by_cases e : k = n
    · subst e
      unfold ND at hk; rw [hp] at hk
      simp only [ND, upd_same]
      refine ⟨⟨?_, ?_⟩, fun l => ?_⟩
      · rw [cas_last _ _ _ (by simp)]; exact hk.1
      · rw [cas_last _ _ _ (by simp)]; exact hk.2
      · rw [cas_view]
        have := hv.cur t l
        by_cases el : l = .head
        · subst el; simp only [if_true]; omega
        · simp only [if_neg el]; omega
    · exact hk.keep (upd_ne _ _ e) (upd_ne _ _ e) (cas_last _ _ _ (by simp)) (cas_last _ _ _ (by simp)) (fun u x => cas_cur hv _ n u x)
        fun l => by
          show _ ≤ (s.cas t n).mem.view .head ((s.cas t n).mem.last .head) l
          rw [cas_view]; omega
  | casFail t n x i hp hr =>
    by_cases e : k = n
    · subst e
      unfold ND at hk; rw [hp] at hk
      simp only [ND, upd_same]
      exact ⟨Nat.le_trans hk.1 (peek_cur ..), Nat.le_trans hk.2 (peek_cur ..)⟩
    · exact hk.keep (upd_ne _ _ e) rfl rfl rfl (peek_cur s t i) fun _ => Nat.le_refl _
  | exchange hc =>
    by_cases e : s.pc k = .inList
    · unfold ND at hk; rw [e] at hk
      simp only [ND, if_pos e]
      have h1 : ∀ l, s.pv k l ≤ (s.xchg.tv 0).cur l := fun l => Nat.le_trans (hk.2 l) (xchg_acquires hv l)
      refine ⟨⟨?_, ?_⟩, h1⟩
      · rw [xchg_last _ (by simp)]; exact Nat.le_trans hk.1.1 (h1 _)
      · rw [xchg_last _ (by simp)]; exact Nat.le_trans hk.1.2 (h1 _)
    · exact hk.keep (if_neg e) rfl (xchg_last _ (by simp)) (xchg_last _ (by simp)) (xchg_cur hv) (xchg_view s)
  | revStep l f hc hl _ =>
    by_cases e : k = l
    · subst e
      have hp := (taken_of r).1 k f hc hl
      unfold ND at hk; rw [hp] at hk
      unfold ND
      simp only [St.write] at *
      rw [hp]
      show Owns (s.write 0 (.next k) f).mem ((s.write 0 (.next k) f).tv 0).cur k ∧ ∀ l, s.pv k l ≤ ((s.write 0 (.next k) f).tv 0).cur l
      refine ⟨⟨write_own .., ?_⟩, fun l => Nat.le_trans (hk.2 l) (write_cur hv ..)⟩
      rw [write_last_ne _ _ _ (by simp)]
      exact Nat.le_trans hk.1.2 (write_cur hv ..)
    · exact hk.keep rfl rfl (write_last_ne _ _ _ (by simpa using e)) (write_last_ne _ _ _ (by simp)) (fun _ _ => write_cur hv _ _ f _ _)
        fun x => same (write_view_head s 0 f (by simp) x).symm
  | revRace => exact hk.keep rfl rfl rfl rfl (fun _ _ => Nat.le_refl _) fun _ => Nat.le_refl _
  | revDone => exact hk.keep rfl rfl rfl rfl (fun _ _ => Nat.le_refl _) fun _ => Nat.le_refl _
  | readNext => exact hk.keep rfl rfl rfl rfl (fun _ _ => Nat.le_refl _) fun _ => Nat.le_refl _
  | readRace => exact hk.keep rfl rfl rfl rfl (fun _ _ => Nat.le_refl _) fun _ => Nat.le_refl _
  | invoke r' nx hc _ =>
    by_cases e : k = r'
    · subst e; simp only [ND, upd_same]
    · exact hk.keep (upd_ne _ _ e) rfl (write_last_ne _ _ _ (by simp)) (write_last_ne _ _ _ (by simp)) (fun _ _ => write_cur hv _ _ 0 _ _)
        fun x => same (write_view_head s 0 0 (by simp) x).symm
  | invokeRace => exact hk.keep rfl rfl rfl rfl (fun _ _ => Nat.le_refl _) fun _ => Nat.le_refl _
  | walkDone => exact hk.keep rfl rfl rfl rfl (fun _ _ => Nat.le_refl _) fun _ => Nat.le_refl _
  | destroy t n v d hp h1 h2 h3 =>
    by_cases e : k = n
    · subst e; simp only [ND, upd_same]
    · exact (hk.two_writes hv t v d e).keep (upd_ne _ _ e) rfl rfl rfl (fun _ _ => Nat.le_refl _) fun _ => Nat.le_refl _

theorem inv_reach {s : St} (h : Reach s) : IV s ∧ ∀ n, ND s n := by
  induction h with
  | init next data cell =>
    exact ⟨⟨fun _ => Nat.one_pos, fun _ _ _ _ => Nat.one_pos, fun _ _ => Nat.one_pos, fun _ _ => Nat.one_pos, fun _ _ => Nat.one_pos⟩,
      fun _ => trivial⟩
  | step r st ih => exact ⟨ih.1.step st, nd_step r ih.1 ih.2 st⟩

theorem knows_of {s : St} (h : IV s) {t : Nat} {l : Loc} (hl : s.mem.last l ≤ (s.tv t).cur l) : s.knows t l := by
  have := h.cur t l
  simp only [St.knows, Mem.last] at *; omega

/-- **C47, no data race.** No execution has a data race on the members of a node, be it in `push`, in `try_pop_all` or in
`for_each_elem`. -/
theorem no_race {s : St} (h : Reach s) : s.ub = false := by
  induction h with
  | init => rfl
  | @step s s' r st ih =>
    obtain ⟨hv, nd⟩ := inv_reach r
    cases st with
    | linkRace t n x hp hk =>
      have := nd n; unfold ND at this; rw [hp] at this
      exact absurd (knows_of hv this.1) hk
    | revRace l f hc hl hk =>
      have := nd l; unfold ND at this; rw [(taken_of r).1 l f hc hl] at this
      exact absurd (knows_of hv this.1.1) hk
    | readRace n hc hl hk =>
      have := nd n; unfold ND at this; rw [(taken_of r).2.1 n hc hl] at this
      exact absurd (knows_of hv this.1.1) hk
    | invokeRace n nx hc hk =>
      have := nd n; unfold ND at this; rw [(taken_of r).2.2 n nx hc] at this
      exact absurd (knows_of hv this.1.2) hk
    | _ => exact ih

/-- **C47, publication.** When the consumer's function is called for a node, the consumer knows everything the pusher of the node knew
when its push took effect. -/
theorem push_visible {s : St} (h : Reach s) {n nx : Nat} (hc : s.cons = .call n nx) (l : Loc) : s.pv n l ≤ (s.tv 0).cur l := by
  have := (inv_reach h).2 n; unfold ND at this; rw [(taken_of h).2.2 n nx hc] at this
  exact this.2 l

/-- In particular it cannot read a value of a cell that is older than one the pusher wrote or knew of. -/
theorem reads_no_older {s : St} (h : Reach s) {n nx : Nat} (hc : s.cons = .call n nx) (k i : Nat)
    (hr : CanRead s.mem (s.tv 0) (.cell k) i) : s.pv n (.cell k) ≤ i := Nat.le_trans (push_visible h hc _) hr.1

/-! ### A run: thread 1 writes a cell and pushes node 5; thread 2 has read the head before, fails, reads it again and pushes node 6;
the consumer gets both in order. -/

instance {L : Type} [DecidableEq L] (m : Mem L) (tv : TV L) (l : L) (i : Nat) : Decidable (CanRead m tv l i) :=
  inferInstanceAs (Decidable (_ ∧ _))

theorem exRun : ∃ s, Reach s ∧ s.cons = .call 5 6 ∧ s.pushed = [50, 60] ∧ s.handed = [] ∧ s.pv 5 (.cell 0) = 1 := by
  have r := Reach.init (fun _ => 7) (fun _ => 7) (fun _ => 0)
  replace r := r.step (.construct _ 1 5 50 (by decide) rfl rfl rfl)
  replace r := r.step (.construct _ 2 6 60 (by decide) rfl rfl rfl)
  replace r := r.step (.load _ 2 6 0 rfl (by decide +kernel))
  replace r := r.step (.cell _ 1 0 42 rfl)
  replace r := r.step (.load _ 1 5 0 rfl (by decide +kernel))
  replace r := r.step (.link _ 1 5 0 rfl rfl)
  replace r := r.step (.casOk _ 1 5 0 rfl rfl)
  replace r := r.step (.link _ 2 6 0 rfl rfl)
  replace r := r.step (.casFail _ 2 6 0 1 rfl (by decide +kernel))
  replace r := r.step (.link _ 2 6 5 rfl rfl)
  replace r := r.step (.casOk _ 2 6 5 rfl rfl)
  replace r := r.step (.exchange _ rfl)
  replace r := r.step (.revStep _ 6 0 rfl (by decide) rfl)
  replace r := r.step (.revStep _ 5 6 rfl (by decide) rfl)
  replace r := r.step (.revDone _ 5 rfl)
  replace r := r.step (.readNext _ 5 rfl (by decide) rfl)
  exact ⟨_, r, rfl, rfl, rfl, rfl⟩

/-- The consumer now cannot read the old value of the cell. -/
example : ∃ s, Reach s ∧ ¬ CanRead s.mem (s.tv 0) (.cell 0) 0 := by
  obtain ⟨s, r, hc, -, -, h⟩ := exRun
  refine ⟨s, r, fun hr => ?_⟩
  have := reads_no_older r hc 0 0 hr
  omega

end Verif.Weak.WList
