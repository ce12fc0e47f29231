import Verif.Weak.SleepInv

/-!
C54: neither a submission nor the destructor's stop request leaves a worker of a `lazy_pool` asleep, under the C++ memory model.
-/
namespace Verif.Weak.Sleep
open Verif.Weak.Ev (Loc client doPrepare doNotify doWakeAll rmwAny rmwAnyView upd Eligible IsBlocked Few upd_same upd_ne iv_reach inv_reach)
open Verif.EventCount (subWaiter P32 epochOf)

/-- Has found its list empty after `prepare_wait`, and has neither cancelled nor left yet. -/
def win : PPc → Bool
  | .stopT | .dec | .chk | .wait | .sleep => true
  | _ => false

theorem win_reg {p : PPc} {q : Ev.Pc} (h : Fits p q) (w : win p = true) : Ev.reg q = true := by
  cases p
  case sleep => rcases h with ⟨k, rfl⟩ | ⟨k, i, rfl⟩ | rfl <;> rfl
  all_goals first
    | (cases w; done)
    | (obtain ⟨k, rfl⟩ := h; rfl)

/-- Thread `u` has called `notify_all` since `v` prepared. -/
def Noted (N : Nat) (s : Ev.St) (u v : Nat) : Prop :=
  u < N ∧ ∃ s₀, Ev.Reach N s₀ ∧ s₀.pc u = .idle ∧ Ev.Steps N (doNotify s₀ u true) s ∧ s.at_ v < s₀.mem.len .word

theorem Noted.step {N t u v : Nat} {s s' : Ev.St} (h : Noted N s u v) (st : s' = s ∨ Ev.Step N t s s') (e : s'.at_ v = s.at_ v) : Noted N s' u v := by
  obtain ⟨hu, s₀, h1, h2, h3, h4⟩ := h
  refine ⟨hu, s₀, h1, h2, ?_, by rwa [e]⟩
  rcases st with rfl | st
  · exact h3
  · exact h3.step st

/-- A worker that is about to sleep although there is something in its list will be told. -/
def Subs (N : Nat) (s : St) : Prop :=
  ∀ v, v < N → win (s.pc v) = true → s.pending v ≠ 0 → (s.pusher v < N ∧ s.pc (s.pusher v) = .post v) ∨ Noted N s.ev (s.pusher v) v

theorem pending_chg {s : St} {t n : Nat} {x : Int} {acq rel : Bool} {v : Nat} (s' : St) (e : s'.ev = chg s.ev t n x acq rel) :
    s'.pending v = if n = lst v then x else s.pending v := by
  unfold St.pending
  rw [e]
  unfold chg
  simp only [Mem.append, Mem.last]
  by_cases h : n = lst v
  · subst h; simp
  · have : lst v ≠ n := fun e => h e.symm
    simp [h, this]

/-- Steps that do not concern the lists. -/
theorem Subs.keep {N dt t : Nat} {s s' : St} (h : Subs N s) (b : Base N s) (ht : t < N) (st : Step dt t s s')
    (hp : ∀ v, v < N → win (s'.pc v) = true → s'.pending v = s.pending v) (hn : s'.pusher = s.pusher)
    (hw : win (s'.pc t) = true → win (s.pc t) = true) (ha : ∀ v, win (s'.pc v) = true → s'.ev.at_ v = s.ev.at_ v)
    (hpost : ∀ v, s.pc t = .post v → s'.pc t = .post v) : Subs N s' := by
  intro v hv w p
  obtain ⟨h1, -, h3⟩ := st.ev ht (b.fits t ht)
  rw [hp v hv w] at p
  have w' : win (s.pc v) = true := by
    by_cases e : v = t
    · subst e; exact hw w
    · rwa [(h3 v e).1] at w
  rw [hn]
  rcases h v hv w' p with ⟨h4, h5⟩ | h4
  · left
    refine ⟨h4, ?_⟩
    by_cases e : s.pusher v = t
    · rw [e] at h5 ⊢; exact hpost v h5
    · rw [(h3 _ e).1]; exact h5
  · exact .inr (h4.step h1 (ha v w))

theorem pending_word {s : St} {v : Nat} {x : Int} {w : View Loc} (s' : St) (e : s'.ev.mem = s.ev.mem.append .word x w) : s'.pending v = s.pending v := by
  unfold St.pending
  rw [e]
  simp [Mem.append, Mem.last]

theorem pending_same {s : St} {v : Nat} (s' : St) (e : s'.ev.mem = s.ev.mem) : s'.pending v = s.pending v := by
  unfold St.pending
  rw [e]

theorem pending_frame {s : St} {v : Nat} (s' : St)
    (e : ∀ n, n % 2 = 1 → s'.ev.mem.val (.data n) = s.ev.mem.val (.data n) ∧ s'.ev.mem.len (.data n) = s.ev.mem.len (.data n)) : s'.pending v = s.pending v := by
  have := e (lst v) (by unfold lst; omega)
  unfold St.pending Mem.last
  rw [this.1, this.2]

theorem lst_ne_even (k v : Nat) : ¬ 2 * k + 2 = lst v := by unfold lst; omega

theorem lst_ne_zero (v : Nat) : ¬ 0 = lst v := by unfold lst; omega

theorem lst_inj {a b : Nat} (h : lst a = lst b) : a = b := by unfold lst at h; omega

/-- The `notify_all` of a submitter concerns everybody that has prepared. -/
theorem noted_now {N t v : Nat} {s : St} (b : Base N s) (hN : N < P32) (ht : t < N) (hi : s.ev.pc t = .idle) (hv : v < N) (w : win (s.pc v) = true) :
    Noted N (doNotify s.ev t true) t v := by
  refine ⟨ht, s.ev, b.reach, hi, .refl _, ?_⟩
  obtain ⟨iv, -, ip⟩ := inv_reach hN b.reach
  have h1 := (ip v).at_ (win_reg (b.fits v hv) w)
  have h2 := (iv.tv v).cur.lt .word
  show s.ev.at_ v < _
  omega

theorem Subs.step {N dt t : Nat} {s s' : St} (hN : N < P32) (h : Subs N s) (b : Base N s) (ht : t < N) (st : Step dt t s s') : Subs N s' := by
  have st' := st
  have keep := fun x1 x2 x3 x4 x5 => Subs.keep h b ht st x1 x2 x3 x4 x5
  have self : ∀ p, upd s.pc t p t = p := fun p => upd_same _ _ _
  have np : ∀ {p q : PPc}, s.pc t = p → (∀ v, p ≠ .post v) → ∀ v, s.pc t = .post v → q = .post v := fun e f v e' => absurd (e.symm.trans e') (f v)
  have nw : ∀ {p : PPc}, win p = false → win (upd s.pc t p t) = true → win (s.pc t) = true := fun e e' => by rw [self, e] at e'; cases e'
  have ow : ∀ {p q : PPc}, s.pc t = p → win p = true → win (upd s.pc t q t) = true → win (s.pc t) = true := fun e e' _ => by rw [e]; exact e'
  cases st with
  | other hp ho =>
    obtain ⟨e1, e2, e3, -⟩ := ho.frame
    exact keep (fun v _ _ => pending_frame _ e3) rfl (nw rfl) (fun v _ => congrFun e2 v) (np hp nofun)
  | notifyOne hp => exact keep (fun v _ _ => pending_word _ rfl) rfl (nw rfl) (fun v _ => rfl) (np hp nofun)
  | push v hp =>
    intro v' hv' w p
    by_cases e : v' = v
    · subst e
      left
      show upd s.pusher v' t v' < N ∧ upd s.pc t (.post v') (upd s.pusher v' t v') = _
      rw [upd_same, upd_same]
      exact ⟨ht, rfl⟩
    · rw [pending_chg _ rfl, if_neg (fun h => e (lst_inj h).symm)] at p
      have hvt : v' ≠ t := by
        rintro rfl
        exact absurd w (by show win (upd s.pc v' (.post v) v') ≠ _; rw [upd_same]; exact nofun)
      have w' : win (s.pc v') = true := by
        have : upd s.pc t (.post v) v' = s.pc v' := upd_ne _ _ hvt
        rw [← this]; exact w
      show (upd s.pusher v t v' < N ∧ upd s.pc t (.post v) (upd s.pusher v t v') = _) ∨ Noted N _ (upd s.pusher v t v') v'
      rw [upd_ne _ _ e]
      rcases h v' hv' w' p with ⟨h4, h5⟩ | h4
      · left
        refine ⟨h4, ?_⟩
        rw [upd_ne _ _ (fun e => by rw [e, hp] at h5; cases h5)]; exact h5
      · exact .inr (h4.step (st'.ev ht (b.fits t ht)).1 rfl)
  | @postNotify v hp =>
    intro v' hv' w p
    have hi : s.ev.pc t = .idle := by have := b.fits t ht; rw [hp] at this; exact this
    have hvt : v' ≠ t := by
      rintro rfl
      exact absurd w (by show win (upd s.pc v' (.tell false) v') ≠ _; rw [upd_same]; decide)
    have w' : win (s.pc v') = true := by
      have : upd s.pc t (.tell false) v' = s.pc v' := upd_ne _ _ hvt
      rw [← this]; exact w
    rw [pending_word _ rfl] at p
    rcases h v' hv' w' p with ⟨h4, h5⟩ | h4
    · by_cases e : s.pusher v' = t
      · right
        show Noted N _ (s.pusher v') v'
        rw [e]
        exact noted_now b hN ht hi hv' w'
      · left
        refine ⟨h4, ?_⟩
        show upd s.pc t _ (s.pusher v') = _
        rw [upd_ne _ _ e]; exact h5
    · exact .inr (h4.step (st'.ev ht (b.fits t ht)).1 rfl)
  | @tellAll c hp hq => exact keep (fun v _ _ => pending_same _ rfl) rfl (nw (by cases c <;> rfl)) (fun v _ => rfl) (np hp nofun)
  | @tellOne c hp hq => exact keep (fun v _ _ => pending_same _ rfl) rfl (nw (by cases c <;> rfl)) (fun v _ => rfl) (np hp nofun)
  | @told c hp hq => exact keep (fun v _ _ => pending_same _ rfl) rfl (nw (by cases c <;> rfl)) (fun v _ => rfl) (np hp nofun)
  | pop hp =>
    refine keep (fun v hv w => ?_) rfl (nw rfl) (fun v _ => rfl) (np hp nofun)
    rw [pending_chg _ rfl, if_neg]
    intro e
    rw [lst_inj e] at w
    exact absurd w (by show win (upd s.pc _ _ _) ≠ _; rw [← lst_inj e, upd_same]; decide)
  | prepare hp =>
    refine keep (fun v hv w => pending_word _ rfl) rfl (nw rfl) (fun v w => ?_) (np hp nofun)
    refine upd_ne _ _ ?_
    rintro rfl
    exact absurd w (by show win (upd s.pc _ _ _) ≠ _; rw [upd_same]; decide)
  | popSome hp _ =>
    refine keep (fun v hv w => ?_) rfl (nw rfl) (fun v _ => rfl) (np hp nofun)
    rw [pending_chg _ rfl, if_neg]
    intro e
    rw [lst_inj e] at w
    exact absurd w (by show win (upd s.pc _ _ _) ≠ _; rw [← lst_inj e, upd_same]; decide)
  | popNone hp h0 =>
    -- the list is empty
    intro v hv w p
    rw [pending_chg _ rfl] at p
    by_cases e : v = t
    · subst e
      rw [if_pos rfl] at p
      exact absurd rfl p
    · rw [if_neg (fun h => e (lst_inj h).symm)] at p
      have w' : win (s.pc v) = true := by
        have : upd s.pc t .stopT v = s.pc v := upd_ne _ _ e
        rw [← this]; exact w
      rcases h v hv w' p with ⟨h4, h5⟩ | h4
      · left
        refine ⟨h4, ?_⟩
        show upd s.pc t _ (s.pusher v) = _
        rw [upd_ne _ _ (fun e => by rw [e, hp] at h5; cases h5)]; exact h5
      · exact .inr (h4.step (st'.ev ht (b.fits t ht)).1 rfl)
  | stopTest i hp hr => exact keep (fun v _ _ => pending_same _ rfl) rfl (ow hp rfl) (fun v _ => rfl) (np hp nofun)
  | dec k v last hp => exact keep (fun v _ _ => by rw [pending_chg _ rfl, if_neg (lst_ne_even _ _)]) rfl (ow hp rfl) (fun v _ => rfl) (np hp nofun)
  | chk k i active hp hr => exact keep (fun v _ _ => pending_same _ rfl) rfl (ow hp rfl) (fun v _ => rfl) (np hp nofun)
  | wait hp hk => exact keep (fun v _ _ => pending_same _ rfl) rfl (ow hp rfl) (fun v _ => rfl) (np hp nofun)
  | look hp hk hr => exact keep (fun v _ _ => pending_same _ rfl) rfl (ow hp rfl) (fun v _ => rfl) (np hp nofun)
  | unblock hp hk => exact keep (fun v _ _ => pending_same _ rfl) rfl (ow hp rfl) (fun v _ => rfl) (np hp nofun)
  | leave hp hk => exact keep (fun v _ _ => pending_word _ rfl) rfl (ow hp rfl) (fun v _ => rfl) (np hp nofun)
  | @cancel c hp => exact keep (fun v _ _ => pending_word _ rfl) rfl (nw (by cases c <;> rfl)) (fun v _ => rfl) (np hp nofun)
  | exitNotify hp => exact keep (fun v _ _ => pending_word _ rfl) rfl (nw rfl) (fun v _ => rfl) (np hp nofun)
  | quit k v hp => exact keep (fun v _ _ => by rw [pending_chg _ rfl, if_neg (lst_ne_even _ _)]) rfl (nw rfl) (fun v _ => rfl) (np hp nofun)
  | quit2 hp => exact keep (fun v _ _ => by rw [pending_chg _ rfl, if_neg (lst_ne_zero _)]) rfl (nw rfl) (fun v _ => rfl) (np hp nofun)
  | stop hd hp hs => exact keep (fun v _ _ => by rw [pending_chg _ rfl, if_neg (lst_ne_zero _)]) rfl (nw rfl) (fun v _ => rfl) (np hp nofun)
  | stopNotify hp => exact keep (fun v _ _ => pending_word _ rfl) rfl (nw rfl) (fun v _ => rfl) (np hp nofun)

/-! ### The stop request -/

/-- About to look at the flag. -/
def early : PPc → Bool
  | .pop2 | .stopT => true
  | _ => false

/-- Has found the flag clear, and has neither cancelled nor left yet. -/
def late : PPc → Bool
  | .dec | .chk | .wait | .sleep => true
  | _ => false

/-- On its way out. -/
def exiting : PPc → Bool
  | .cancel true | .exitN | .tell true | .quit | .quit2 | .gone => true
  | _ => false

/-- The stop flag: only the first message is 0; as long as the destructor has not set it there is no other. -/
structure Flag (s : St) : Prop where
  zero : ∀ i, 1 ≤ i → i < s.ev.mem.len (.data 0) → s.ev.mem.val (.data 0) i = 1
  init : s.ev.mem.val (.data 0) 0 = 0
  clear : s.stopped = false → s.ev.mem.len (.data 0) = 1
  out : ∀ v, exiting (s.pc v) = true → s.stopped = true
  pos : 1 ≤ s.ev.mem.len (.data 0)

/-- What happens to the flag. -/
theorem Flag.keep {s s' : St} {t : Nat} {p : PPc} (h : Flag s) (e1 : s'.ev.mem.val (.data 0) = s.ev.mem.val (.data 0)) (e2 : s'.ev.mem.len (.data 0) = s.ev.mem.len (.data 0))
    (e3 : s'.stopped = s.stopped) (e4 : s'.pc = upd s.pc t p) (e5 : exiting p = true → s.stopped = true) : Flag s' := by
  refine ⟨?_, ?_, ?_, ?_, ?_⟩
  · rw [e1, e2]; exact h.zero
  · rw [e1]; exact h.init
  · rw [e2, e3]; exact h.clear
  · intro v hv
    rw [e3]
    rw [e4] at hv
    by_cases e : v = t
    · rw [e, upd_same] at hv; exact e5 hv
    · rw [upd_ne _ _ e] at hv; exact h.out v hv
  · rw [e2]; exact h.pos

theorem Flag.set {s s' : St} {t : Nat} {p : PPc} {rel : Bool} (h : Flag s) (e1 : s'.ev = chg s.ev t 0 1 false rel) (e3 : s'.stopped = true) (e4 : s'.pc = upd s.pc t p) : Flag s' := by
  have pos := h.pos
  refine ⟨fun i h1 h2 => ?_, ?_, ?_, fun v hv => e3, ?_⟩
  · rw [e1] at h2 ⊢
    simp only [chg, Mem.append, if_true, true_and] at h2 ⊢
    split
    · rfl
    · exact h.zero i h1 (by omega)
  · rw [e1]
    simp only [chg, Mem.append, true_and]
    rw [if_neg (by omega)]
    exact h.init
  · intro e; rw [e3] at e; cases e
  · rw [e1]; simp [chg, Mem.append]

theorem Flag.step {dt t : Nat} {s s' : St} (h : Flag s) (st : Step dt t s s') : Flag s' := by
  have out : ∀ {p}, s.pc t = p → exiting p = true → s.stopped = true := fun e e' => h.out t (by rw [e]; exact e')
  have odd : ∀ n (v : Int) (a r : Bool), n ≠ 0 → (chg s.ev t n v a r).mem.val (.data 0) = s.ev.mem.val (.data 0) ∧ (chg s.ev t n v a r).mem.len (.data 0) = s.ev.mem.len (.data 0) := by
    intro n v a r hn
    constructor
    · funext i; simp [chg, Mem.append, Ne.symm hn]
    · simp [chg, Mem.append, Ne.symm hn]
  have word : ∀ (v : Int) (w : View Loc), (s.ev.mem.append .word v w).val (.data 0) = s.ev.mem.val (.data 0) ∧ (s.ev.mem.append .word v w).len (.data 0) = s.ev.mem.len (.data 0) := by
    intro v w
    constructor
    · funext i; simp [Mem.append]
    · simp [Mem.append]
  have l0 : ∀ v, lst v ≠ 0 := fun v => by unfold lst; omega
  cases st with
  | other hp ho =>
    obtain ⟨-, -, -, e3, e4⟩ := ho.frame
    exact h.keep (t := t) e3 e4 rfl rfl nofun
  | notifyOne hp => exact h.keep (t := t) (word _ _).1 (word _ _).2 rfl rfl nofun
  | push v hp => exact h.keep (t := t) (odd _ _ _ _ (l0 v)).1 (odd _ _ _ _ (l0 v)).2 rfl rfl nofun
  | postNotify hp => exact h.keep (t := t) (word _ _).1 (word _ _).2 rfl rfl nofun
  | @tellAll c hp hq => exact h.keep (t := t) rfl rfl rfl rfl (by cases c with | false => exact nofun | true => exact fun _ => out hp rfl)
  | @tellOne c hp hq => exact h.keep (t := t) rfl rfl rfl rfl (by cases c with | false => exact nofun | true => exact fun _ => out hp rfl)
  | @told c hp hq => exact h.keep (t := t) rfl rfl rfl rfl (by cases c with | false => exact nofun | true => exact fun _ => out hp rfl)
  | pop hp => exact h.keep (t := t) (odd _ _ _ _ (l0 t)).1 (odd _ _ _ _ (l0 t)).2 rfl rfl nofun
  | prepare hp => exact h.keep (t := t) (word _ _).1 (word _ _).2 rfl rfl nofun
  | popSome hp _ => exact h.keep (t := t) (odd _ _ _ _ (l0 t)).1 (odd _ _ _ _ (l0 t)).2 rfl rfl nofun
  | popNone hp _ => exact h.keep (t := t) (odd _ _ _ _ (l0 t)).1 (odd _ _ _ _ (l0 t)).2 rfl rfl nofun
  | stopTest i hp hr =>
    refine h.keep (t := t) rfl rfl rfl rfl fun e => ?_
    split at e
    case isTrue hv =>
      cases hs : s.stopped
      · have h1 := h.clear hs
        have h2 := hr.2
        have : i = 0 := by omega
        rw [this, h.init] at hv
        exact absurd rfl hv
      · rfl
    case isFalse => cases e
  | dec k v last hp => exact h.keep (t := t) (odd _ _ _ _ (by omega)).1 (odd _ _ _ _ (by omega)).2 rfl rfl (by cases last <;> nofun)
  | chk k i active hp hr => exact h.keep (t := t) rfl rfl rfl rfl (by cases active <;> nofun)
  | wait hp hk => exact h.keep (t := t) rfl rfl rfl rfl nofun
  | look hp hk hr => exact h.keep (t := t) rfl rfl rfl rfl nofun
  | unblock hp hk => exact h.keep (t := t) rfl rfl rfl rfl nofun
  | leave hp hk => exact h.keep (t := t) (word _ _).1 (word _ _).2 rfl rfl nofun
  | @cancel c hp => exact h.keep (t := t) (word _ _).1 (word _ _).2 rfl rfl (by cases c with | false => exact nofun | true => exact fun _ => out hp rfl)
  | exitNotify hp => exact h.keep (t := t) (word _ _).1 (word _ _).2 rfl rfl (fun _ => out hp rfl)
  | quit k v hp => exact h.keep (t := t) (odd _ _ _ _ (by omega)).1 (odd _ _ _ _ (by omega)).2 rfl rfl (fun _ => out hp rfl)
  | quit2 hp => exact h.set rfl (out hp rfl) rfl
  | stop hd hp hs => exact h.set rfl rfl rfl
  | stopNotify hp => exact h.keep (t := t) (word _ _).1 (word _ _).2 rfl rfl nofun

/-- After the stop request everybody who is about to sleep will be told, or sees the flag. -/
def Stops (N dt : Nat) (s : St) : Prop :=
  (∀ v, s.pc v = .stopping → v = dt) ∧
  (s.stopped = true → dt < N ∧ ((s.pc dt = .stopping ∧ 1 ≤ (s.ev.tv dt).cur (.data 0)) ∨
    ∃ s₀, Ev.Reach N s₀ ∧ s₀.pc dt = .idle ∧ Ev.Steps N (doNotify s₀ dt true) s.ev ∧ 1 ≤ (s₀.tv dt).cur (.data 0) ∧
      ∀ v, v < N → (early (s.pc v) = true → s.ev.at_ v < s₀.mem.len .word ∨ 1 ≤ (s.ev.tv v).cur (.data 0)) ∧
        (late (s.pc v) = true → s.ev.at_ v < s₀.mem.len .word)))

theorem Stops.keep {N dt t : Nat} {s s' : St} (h : Stops N dt s) (b : Base N s) (ht : t < N) (st : Step dt t s s')
    (h1 : s'.stopped = s.stopped) (h2 : s.pc t ≠ .stopping) (h2' : s'.pc t ≠ .stopping) (h3 : early (s'.pc t) = true → early (s.pc t) = true)
    (h4 : late (s'.pc t) = true → late (s.pc t) = true) (ha : ∀ v, s'.ev.at_ v = s.ev.at_ v) : Stops N dt s' := by
  obtain ⟨g1, -, g3⟩ := st.ev ht (b.fits t ht)
  have grow : Ev.Grow s.ev s'.ev := by
    rcases g1 with e | e
    · rw [e]; exact .refl _
    · exact Ev.grow_step (iv_reach b.reach) e
  refine ⟨fun v hv => ?_, fun hs => ?_⟩
  · by_cases e : v = t
    · subst e; exact absurd hv h2'
    · rw [(g3 v e).1] at hv; exact h.1 v hv
  · rw [h1] at hs
    obtain ⟨hd, h5⟩ := h.2 hs
    refine ⟨hd, ?_⟩
    rcases h5 with ⟨h6, h7⟩ | ⟨s₀, k1, k2, k3, k4, k5⟩
    · left
      have hne : dt ≠ t := by rintro rfl; exact h2 h6
      exact ⟨by rw [(g3 dt hne).1]; exact h6, Nat.le_trans h7 (grow.cur dt _)⟩
    · right
      refine ⟨s₀, k1, k2, ?_, k4, fun v hv => ?_⟩
      · rcases g1 with e | e
        · rw [e]; exact k3
        · exact k3.step e
      · have e1 : early (s'.pc v) = true → early (s.pc v) = true := by
          by_cases e : v = t
          · subst e; exact h3
          · rw [(g3 v e).1]; exact id
        have e2 : late (s'.pc v) = true → late (s.pc v) = true := by
          by_cases e : v = t
          · subst e; exact h4
          · rw [(g3 v e).1]; exact id
        rw [ha]
        refine ⟨fun e => ?_, fun e => (k5 v hv).2 (e2 e)⟩
        rcases (k5 v hv).1 (e1 e) with k | k
        · exact .inl k
        · exact .inr (Nat.le_trans k (grow.cur v _))

theorem early_reg {p : PPc} {q : Ev.Pc} (h : Fits p q) (w : early p = true ∨ late p = true) : Ev.reg q = true := by
  cases p
  case sleep => rcases h with ⟨k, rfl⟩ | ⟨k, i, rfl⟩ | rfl <;> rfl
  all_goals first
    | (obtain ⟨k, rfl⟩ := h; rfl)
    | (rcases w with w | w <;> cases w; done)

theorem Stops.step {N dt t : Nat} {s s' : St} (hN : N < P32) (h : Stops N dt s) (f : Flag s) (b : Base N s) (ht : t < N) (st : Step dt t s s') : Stops N dt s' := by
  have st' := st
  have keep := fun x1 x2 x3 x4 x5 x6 => Stops.keep h b ht st x1 x2 x3 x4 x5 x6
  have self : ∀ p, upd s.pc t p t = p := fun p => upd_same _ _ _
  have ns : ∀ {p : PPc}, s.pc t = p → p ≠ .stopping → s.pc t ≠ .stopping := fun e e' => by rw [e]; exact e'
  have ns' : ∀ {p : PPc}, p ≠ .stopping → upd s.pc t p t ≠ .stopping := fun e => by rw [self]; exact e
  have ne : ∀ {p : PPc}, early p = false → early (upd s.pc t p t) = true → early (s.pc t) = true := fun e e' => by rw [self, e] at e'; cases e'
  have nl : ∀ {p : PPc}, late p = false → late (upd s.pc t p t) = true → late (s.pc t) = true := fun e e' => by rw [self, e] at e'; cases e'
  have oe : ∀ {p q : PPc}, s.pc t = p → early p = true → early (upd s.pc t q t) = true → early (s.pc t) = true := fun e e' _ => by rw [e]; exact e'
  have ol : ∀ {p q : PPc}, s.pc t = p → late p = true → late (upd s.pc t q t) = true → late (s.pc t) = true := fun e e' _ => by rw [e]; exact e'
  have idle : ∀ {p}, s.pc t = p → (Fits p (s.ev.pc t) → s.ev.pc t = .idle) → s.ev.pc t = .idle := fun e g => g (e ▸ b.fits t ht)
  cases st with
  | other hp ho => exact keep rfl (ns hp nofun) (ns' nofun) (ne rfl) (nl rfl) (fun v => congrFun ho.frame.2.1 v)
  | notifyOne hp => exact keep rfl (ns hp nofun) (ns' nofun) (ne rfl) (nl rfl) (fun v => rfl)
  | push v hp => exact keep rfl (ns hp nofun) (ns' nofun) (ne rfl) (nl rfl) (fun v => rfl)
  | postNotify hp => exact keep rfl (ns hp nofun) (ns' nofun) (ne rfl) (nl rfl) (fun v => rfl)
  | @tellAll c hp hq => exact keep rfl (ns hp nofun) (ns' (by cases c <;> nofun)) (ne (by cases c <;> rfl)) (nl (by cases c <;> rfl)) (fun v => rfl)
  | @tellOne c hp hq => exact keep rfl (ns hp nofun) (ns' (by cases c <;> nofun)) (ne (by cases c <;> rfl)) (nl (by cases c <;> rfl)) (fun v => rfl)
  | @told c hp hq => exact keep rfl (ns hp nofun) (ns' (by cases c <;> nofun)) (ne (by cases c <;> rfl)) (nl (by cases c <;> rfl)) (fun v => rfl)
  | pop hp => exact keep rfl (ns hp nofun) (ns' nofun) (ne rfl) (nl rfl) (fun v => rfl)
  | prepare hp =>
    obtain ⟨g1, -, g3⟩ := st'.ev ht (b.fits t ht)
    have g1 : Ev.Step N t s.ev (doPrepare s.ev t .prepared) := .prepare ht (idle hp id)
    have grow := Ev.grow_step (iv_reach b.reach) g1
    refine ⟨fun v hv => ?_, fun hs => ?_⟩
    · by_cases e : v = t
      · subst e; exact absurd hv (ns' nofun)
      · rw [(g3 v e).1] at hv; exact h.1 v hv
    · obtain ⟨hd, h5⟩ := h.2 hs
      refine ⟨hd, ?_⟩
      rcases h5 with ⟨h6, h7⟩ | ⟨s₀, k1, k2, k3, k4, k5⟩
      · left
        have hne : dt ≠ t := by rintro rfl; exact ns hp nofun h6
        exact ⟨by rw [(g3 dt hne).1]; exact h6, Nat.le_trans h7 (grow.cur dt _)⟩
      · right
        refine ⟨s₀, k1, k2, k3.step g1, k4, fun v hv => ?_⟩
        by_cases e : v = t
        · subst e
          refine ⟨fun _ => .inr ?_, fun w => ?_⟩
          · exact Nat.le_trans k4 (Ev.prepared_sees k1 hd k2 k3 ht (idle hp id) (.data 0))
          · exact absurd w (by show late (upd s.pc v .pop2 v) ≠ _; rw [self]; decide)
        · have e1 : (doPrepare s.ev t .prepared).at_ v = s.ev.at_ v := upd_ne _ _ e
          show (early (upd s.pc t .pop2 v) = true → (doPrepare s.ev t .prepared).at_ v < _ ∨ _) ∧ (late (upd s.pc t .pop2 v) = true → (doPrepare s.ev t .prepared).at_ v < _)
          rw [upd_ne _ _ e, e1]
          refine ⟨fun w => ?_, (k5 v hv).2⟩
          rcases (k5 v hv).1 w with k | k
          · exact .inl k
          · exact .inr (Nat.le_trans k (grow.cur v _))
  | popSome hp _ => exact keep rfl (ns hp nofun) (ns' nofun) (ne rfl) (nl rfl) (fun v => rfl)
  | popNone hp _ => exact keep rfl (ns hp nofun) (ns' nofun) (oe hp rfl) (nl rfl) (fun v => rfl)
  | stopTest i hp hr =>
    by_cases hv : s.ev.mem.val (.data 0) i = 0
    · obtain ⟨k, hk⟩ : ∃ k, s.ev.pc t = .prepared k := by have := b.fits t ht; rw [hp] at this; exact this
      have g1 : Ev.Step N t s.ev (s.ev.load t 0 i true (s.ev.pc t)) := .load 0 i true ht (by rw [hk]; rfl) hr
      obtain ⟨-, -, g3⟩ := st'.ev ht (b.fits t ht)
      have grow := Ev.grow_step (iv_reach b.reach) g1
      refine ⟨fun v hv => ?_, fun hs => ?_⟩
      · by_cases e : v = t
        · subst e; exact absurd hv (ns' (by split <;> nofun))
        · rw [(g3 v e).1] at hv; exact h.1 v hv
      · obtain ⟨hd, h5⟩ := h.2 hs
        refine ⟨hd, ?_⟩
        rcases h5 with ⟨h6, h7⟩ | ⟨s₀, k1, k2, k3, k4, k5⟩
        · left
          have hne : dt ≠ t := by rintro rfl; exact ns hp nofun h6
          exact ⟨by rw [(g3 dt hne).1]; exact h6, Nat.le_trans h7 (grow.cur dt _)⟩
        · right
          refine ⟨s₀, k1, k2, k3.step g1, k4, fun v hv' => ?_⟩
          by_cases e : v = t
          · subst e
            have old := (k5 v hv').1 (by rw [hp]; rfl)
            have old : s.ev.at_ v < s₀.mem.len .word := by
              rcases old with k | k
              · exact k
              · have := f.zero i (Nat.le_trans k hr.1) hr.2
                rw [hv] at this
                cases this
            exact ⟨fun _ => .inl old, fun _ => old⟩
          · rw [(g3 v e).1]
            refine ⟨fun w => ?_, (k5 v hv').2⟩
            rcases (k5 v hv').1 w with k | k
            · exact .inl k
            · exact .inr (Nat.le_trans k (grow.cur v _))
    · have e : (if s.ev.mem.val (.data 0) i ≠ 0 then PPc.cancel true else .dec) = .cancel true := if_pos hv
      refine keep rfl (ns hp nofun) (ns' ?_) (ne ?_) (nl ?_) (fun v => rfl) <;> rw [e]
      · exact nofun
      · rfl
      · rfl
  | dec k v last hp => exact keep rfl (ns hp nofun) (ns' (by cases last <;> nofun)) (ne (by cases last <;> rfl)) (ol hp rfl) (fun v => rfl)
  | chk k i active hp hr => exact keep rfl (ns hp nofun) (ns' (by cases active <;> nofun)) (ne (by cases active <;> rfl)) (ol hp rfl) (fun v => rfl)
  | wait hp hk => exact keep rfl (ns hp nofun) (ns' nofun) (ne rfl) (ol hp rfl) (fun v => rfl)
  | look hp hk hr => exact keep rfl (ns hp nofun) (ns' nofun) (ne rfl) (ol hp rfl) (fun v => rfl)
  | unblock hp hk => exact keep rfl (ns hp nofun) (ns' nofun) (ne rfl) (ol hp rfl) (fun v => rfl)
  | leave hp hk => exact keep rfl (ns hp nofun) (ns' nofun) (ne rfl) (nl rfl) (fun v => rfl)
  | @cancel c hp => exact keep rfl (ns hp nofun) (ns' (by cases c <;> nofun)) (ne (by cases c <;> rfl)) (nl (by cases c <;> rfl)) (fun v => rfl)
  | exitNotify hp => exact keep rfl (ns hp nofun) (ns' nofun) (ne rfl) (nl rfl) (fun v => rfl)
  | quit k v hp => exact keep rfl (ns hp nofun) (ns' nofun) (ne rfl) (nl rfl) (fun v => rfl)
  | quit2 hp => exact keep rfl (ns hp nofun) (ns' nofun) (ne rfl) (nl rfl) (fun v => rfl)
  | stop hd hp hs =>
    subst hd
    refine ⟨fun v hv => ?_, fun _ => ⟨ht, .inl ⟨self _, ?_⟩⟩⟩
    · by_cases e : v = t
      · exact e
      · have : upd s.pc t .stopping v = s.pc v := upd_ne _ _ e
        exact h.1 v (this.symm.trans hv)
    · show 1 ≤ (upd s.ev.tv t (rmwAny (s.ev.tv t) s.ev.mem (.data 0) false) t).cur (.data 0)
      rw [upd_same]
      have := f.pos
      simp only [rmwAny, TV.bump, if_true]
      exact this
  | stopNotify hp =>
    have hd := h.1 t hp
    subst hd
    have hi : s.ev.pc t = .idle := idle hp id
    refine ⟨fun v hv => ?_, fun hs => ⟨ht, .inr ?_⟩⟩
    · by_cases e : v = t
      · exact e
      · have : upd s.pc t (.tell false) v = s.pc v := upd_ne _ _ e
        exact h.1 v (this.symm.trans hv)
    · rcases (h.2 hs).2 with ⟨-, h7⟩ | ⟨s₀, k1, k2, k3, k4, k5⟩
      · refine ⟨s.ev, b.reach, hi, .refl _, h7, fun v hv => ?_⟩
        have key : early (upd s.pc t (.tell false) v) = true ∨ late (upd s.pc t (.tell false) v) = true → s.ev.at_ v < s.ev.mem.len .word := by
          intro w
          have e : v ≠ t := by
            rintro rfl
            rw [self] at w
            rcases w with w | w <;> cases w
          rw [upd_ne _ _ e] at w
          obtain ⟨iv, -, ip⟩ := inv_reach hN b.reach
          have h1 := (ip v).at_ (early_reg (b.fits v hv) w)
          have h2 := (iv.tv v).cur.lt .word
          omega
        exact ⟨fun w => .inl (key (.inl w)), fun w => key (.inr w)⟩
      · have g1 : Ev.Step N t s.ev (doNotify s.ev t true) := .notify true ht hi
        have grow := Ev.grow_step (iv_reach b.reach) g1
        refine ⟨s₀, k1, k2, k3.step g1, k4, fun v hv => ?_⟩
        have w' : ∀ q : PPc → Bool, q (.tell false) = false → q (upd s.pc t (.tell false) v) = true → q (s.pc v) = true := by
          intro q hq w
          by_cases e : v = t
          · subst e; rw [self, hq] at w; cases w
          · rwa [upd_ne _ _ e] at w
        refine ⟨fun w => ?_, fun w => (k5 v hv).2 (w' late rfl w)⟩
        rcases (k5 v hv).1 (w' early rfl w) with k | k
        · exact .inl k
        · exact .inr (Nat.le_trans k (grow.cur v _))

/-! ### The theorems -/

structure Inv (N dt : Nat) (s : St) : Prop where
  base : Base N s
  subs : Subs N s
  flag : Flag s
  stops : Stops N dt s

theorem Reach.inv {N dt : Nat} (hN : N < P32) {s : St} (r : Reach N dt s) : Inv N dt s := by
  induction r with
  | init =>
    refine ⟨⟨fun _ _ => rfl, .init _⟩, (fun v _ w => by cases w), ⟨fun i h1 h2 => ?_, rfl, fun _ => rfl, (fun v w => by cases w), Nat.le_refl _⟩,
      ⟨(fun v e => by cases e), (fun e => by cases e)⟩⟩
    have : i < 1 := h2
    omega
  | step _ ht st ih => exact ⟨ih.base.step ht st, ih.subs.step hN ih.base ht st, ih.flag.step st, ih.stops.step hN ih.flag ih.base ht st⟩

theorem blocked_sleeps {N v : Nat} {s : St} (b : Base N s) (hv : v < N) (hb : IsBlocked s.ev v) : s.pc v = .sleep := by
  obtain ⟨k, i, aw, hb⟩ := hb
  have := b.fits v hv
  rw [hb] at this
  cases h : s.pc v <;> rw [h] at this <;> first
    | rfl
    | (cases this; done)
    | (obtain ⟨_, h⟩ := this; cases h; done)
    | (rcases this with h | h | h <;> cases h; done)

/-- Thread `u` can take a step, and every step it can take makes `v` eligible to be unblocked. -/
def Finishing (dt : Nat) (s : St) (u v : Nat) : Prop :=
  (∃ s', Step dt u s s') ∧ ∀ s', Step dt u s s' → Eligible s'.ev v

theorem finishing {N dt u v : Nat} {s : St} (b : Base N s) (hu : u < N) (hw : s.ev.pc u = .wakeAll) (h : ∀ e, Ev.Step N u s.ev e → Eligible e v) :
    Finishing dt s u v := by
  have fu := b.fits u hu
  have ht : ∃ c, s.pc u = .tell c := by
    rw [hw] at fu
    cases h : s.pc u <;> rw [h] at fu <;> first
      | exact ⟨_, rfl⟩
      | (cases fu; done)
      | (obtain ⟨_, h⟩ := fu; cases h; done)
      | (rcases fu with ⟨_, h⟩ | ⟨_, _, h⟩ | h <;> cases h; done)
  obtain ⟨c, hc⟩ := ht
  refine ⟨⟨_, .tellAll hc hw⟩, fun s' st => ?_⟩
  rcases (st.ev hu fu).1 with e | e
  · exfalso
    have e1 : (s'.ev).pc u = .wakeAll := by rw [e]; exact hw
    cases st with
    | tellAll =>
      have e2 := congrFun (congrArg Ev.St.pc e) u
      simp [St.go, doWakeAll, upd_same, hw] at e2
    | _ => simp_all [St.go, doWakeAll]
  · exact h _ e

/-- **C54, submissions.** A worker whose list is not empty does not stay blocked: it is eligible to be unblocked, unless the thread
that pushed last has not yet made the notifying call or is in the middle of it, and then its next step makes it eligible. -/
theorem submission_wakes {N dt v : Nat} (hN : N < P32) {s : St} (r : Reach N dt s) (hv : v < N) (hb : IsBlocked s.ev v) (hp : s.pending v ≠ 0)
    (hf : Few s.ev v) : Eligible s.ev v ∨ s.pc (s.pusher v) = .post v ∨ Finishing dt s (s.pusher v) v := by
  have h := r.inv hN
  have hs := blocked_sleeps h.base hv hb
  rcases h.subs v hv (by rw [hs]; rfl) hp with ⟨-, h1⟩ | ⟨hu, s₀, h1, h2, h3, h4⟩
  · exact .inr (.inl h1)
  · rcases Ev.no_lost_wakeup hN h1 hu h2 h3 hv hb h4 hf with h5 | ⟨h5, h6⟩
    · exact .inl h5
    · exact .inr (.inr (finishing h.base hu h5 h6))

/-- **C54, the stop request.** After the destructor has set the flag no worker stays blocked: it is eligible to be unblocked, unless the
destructor has not yet made the notifying call or is in the middle of it, and then its next step makes it eligible. -/
theorem stop_wakes {N dt v : Nat} (hN : N < P32) {s : St} (r : Reach N dt s) (hv : v < N) (hb : IsBlocked s.ev v) (hp : s.stopped = true)
    (hf : Few s.ev v) : Eligible s.ev v ∨ s.pc dt = .stopping ∨ Finishing dt s dt v := by
  have h := r.inv hN
  have hs := blocked_sleeps h.base hv hb
  obtain ⟨hu, h1⟩ := h.stops.2 hp
  rcases h1 with ⟨h1, -⟩ | ⟨s₀, h1, h2, h3, -, h4⟩
  · exact .inr (.inl h1)
  · rcases Ev.no_lost_wakeup hN h1 hu h2 h3 hv hb ((h4 v hv).2 (by rw [hs]; rfl)) hf with h5 | ⟨h5, h6⟩
    · exact .inl h5
    · exact .inr (.inr (finishing h.base hu h5 h6))

/-- **C54, no worker leaves early.** A worker leaves only after the stop request. -/
theorem exit_stopped {N dt v : Nat} (hN : N < P32) {s : St} (r : Reach N dt s) (hv : s.pc v = .gone) : s.stopped = true :=
  (r.inv hN).flag.out v (by rw [hv]; rfl)

/-- **C54, no submission is lost.** What was pushed to the list of a worker is in the list or was taken out by the worker to be run. -/
theorem submissions_kept {N dt : Nat} {s : St} (r : Reach N dt s) (v : Nat) : s.sent v = s.got v + s.pending v ∧ 0 ≤ s.pending v := by
  induction r with
  | init => exact ⟨rfl, Int.le_refl _⟩
  | @step s s' t _ ht st ih =>
    have same : ∀ {s' : St}, s'.sent = s.sent → s'.got = s.got → s'.pending v = s.pending v → s'.sent v = s'.got v + s'.pending v ∧ 0 ≤ s'.pending v := by
      intro s' e1 e2 e3; rw [e1, e2, e3]; exact ih
    have popped : ∀ {s' : St}, s'.sent = s.sent → s'.ev = chg s.ev t (lst t) 0 false false → s'.got = upd s.got t (s.got t + s.pending t) →
        s'.sent v = s'.got v + s'.pending v ∧ 0 ≤ s'.pending v := by
      intro s' e1 e2 e3
      rw [e1, e3, pending_chg _ e2]
      by_cases e : v = t
      · subst e; rw [upd_same, if_pos rfl]; omega
      · rw [upd_ne _ _ e, if_neg (fun h => e (lst_inj h).symm)]; exact ih
    cases st with
    | other hp ho => exact same rfl rfl (pending_frame _ ho.frame.2.2.1)
    | push u hp =>
      have e := pending_chg (v := v) (s := s) (s' := { s.go t (chg s.ev t (lst u) (s.pending u + 1) false true) (.post u) with
        pusher := upd s.pusher u t, sent := upd s.sent u (s.sent u + 1) }) rfl
      rw [e]
      show upd s.sent u _ v = s.got v + _ ∧ _
      by_cases e : v = u
      · subst e; rw [upd_same, if_pos rfl]; omega
      · rw [upd_ne _ _ e, if_neg (fun h => e (lst_inj h).symm)]; exact ih
    | pop hp => exact popped rfl rfl rfl
    | popSome hp _ => exact popped rfl rfl rfl
    | popNone hp h0 =>
      have e := pending_chg (v := v) (s := s) (s' := s.go t (chg s.ev t (lst t) 0 false false) .stopT) rfl
      rw [e]
      show s.sent v = s.got v + _ ∧ _
      by_cases e : v = t
      · subst e; rw [if_pos rfl]; omega
      · rw [if_neg (fun h => e (lst_inj h).symm)]; exact ih
    | dec => exact same rfl rfl (by rw [pending_chg _ rfl, if_neg (lst_ne_even _ _)])
    | quit => exact same rfl rfl (by rw [pending_chg _ rfl, if_neg (lst_ne_even _ _)])
    | quit2 => exact same rfl rfl (by rw [pending_chg _ rfl, if_neg (lst_ne_zero _)])
    | stop => exact same rfl rfl (by rw [pending_chg _ rfl, if_neg (lst_ne_zero _)])
    | notifyOne => exact same rfl rfl (pending_word _ rfl)
    | postNotify => exact same rfl rfl (pending_word _ rfl)
    | prepare => exact same rfl rfl (pending_word _ rfl)
    | leave => exact same rfl rfl (pending_word _ rfl)
    | cancel => exact same rfl rfl (pending_word _ rfl)
    | exitNotify => exact same rfl rfl (pending_word _ rfl)
    | stopNotify => exact same rfl rfl (pending_word _ rfl)
    | tellAll => exact same rfl rfl (pending_same _ rfl)
    | tellOne => exact same rfl rfl (pending_same _ rfl)
    | told => exact same rfl rfl (pending_same _ rfl)
    | stopTest => exact same rfl rfl (pending_same _ rfl)
    | chk => exact same rfl rfl (pending_same _ rfl)
    | wait => exact same rfl rfl (pending_same _ rfl)
    | look => exact same rfl rfl (pending_same _ rfl)
    | unblock => exact same rfl rfl (pending_same _ rfl)

/-- The guards of the steps never block a thread other than the documented ones: every thread that has not left can take a step,
except a worker that is blocked in `wait`, which the implementation may unblock. -/
theorem not_stuck {N dt t : Nat} {s : St} (r : Reach N dt s) (ht : t < N) (hg : s.pc t ≠ .gone) : ∃ s', Step dt t s s' := by
  have f := r.base.fits t ht
  have iv := iv_reach r.base.reach
  have rd : ∀ l, CanRead s.ev.mem (s.ev.tv t) l (s.ev.mem.last l) := by
    intro l
    have := (iv.tv t).cur.lt l
    have hp := iv.mem.pos l
    constructor <;> simp only [Mem.last] <;> omega
  cases h : s.pc t with
  | run => exact ⟨_, .other h .fenceAcq⟩
  | post v => exact ⟨_, .postNotify h⟩
  | tell c =>
    rw [h] at f
    rcases f with f | f | f
    · exact ⟨_, .told h f⟩
    · exact ⟨_, .tellAll h f⟩
    · exact ⟨_, .tellOne h f⟩
  | pop2 =>
    by_cases e : s.pending t = 0
    · exact ⟨_, .popNone h e⟩
    · exact ⟨_, .popSome h e⟩
  | stopT => exact ⟨_, .stopTest _ h (rd _)⟩
  | dec => exact ⟨_, .dec 0 0 true h⟩
  | chk => exact ⟨_, .chk 0 _ true h (rd _)⟩
  | wait => rw [h] at f; obtain ⟨k, f⟩ := f; exact ⟨_, .wait h f⟩
  | sleep =>
    rw [h] at f
    rcases f with ⟨k, f⟩ | ⟨k, i, f⟩ | f
    · exact ⟨_, .look h f (rd _)⟩
    · exact ⟨_, .unblock h f⟩
    · exact ⟨_, .leave h f⟩
  | cancel c => exact ⟨_, .cancel h⟩
  | exitN => exact ⟨_, .exitNotify h⟩
  | quit => exact ⟨_, .quit 0 0 h⟩
  | quit2 => exact ⟨_, .quit2 h⟩
  | gone => exact absurd h hg
  | stopping => exact ⟨_, .stopNotify h⟩

end Verif.Weak.Sleep
