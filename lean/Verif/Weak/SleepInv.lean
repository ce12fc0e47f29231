import Verif.Weak.SleepModel

/-! C54: the pool's steps are steps of the event count's threads, and what that says about memory. -/
namespace Verif.Weak.Sleep
open Verif.Weak.Ev (Loc client doPrepare doNotify doWakeAll rmwAny rmwAnyView upd Eligible IsBlocked Few upd_same upd_ne)
open Verif.EventCount (subWaiter P32 epochOf)

/-- Where the event count's code is, given where the pool's code is. -/
def Fits : PPc → Ev.Pc → Prop
  | .pop2, p | .stopT, p | .dec, p | .chk, p | .wait, p | .cancel _, p => ∃ k, p = .prepared k
  | .sleep, p => (∃ k, p = .waiting k false) ∨ (∃ k i, p = .blocked k i false) ∨ p = .leaving false
  | .tell _, p => p = .idle ∨ p = .wakeAll ∨ p = .wakeOne
  | _, p => p = .idle

/-- The steps of the other kind do not touch the rest of the event count's state. -/
theorem Other.frame {t : Nat} {e e' : Ev.St} (h : Other t e e') : e'.pc = e.pc ∧ e'.at_ = e.at_ ∧
    (∀ n, n % 2 = 1 → e'.mem.val (.data n) = e.mem.val (.data n) ∧ e'.mem.len (.data n) = e.mem.len (.data n)) ∧
    e'.mem.val (.data 0) = e.mem.val (.data 0) ∧ e'.mem.len (.data 0) = e.mem.len (.data 0) := by
  have key : ∀ (k : Nat) (v : Int) (w : View Loc),
      (∀ n, n % 2 = 1 → (e.mem.append (.data (2 * k + 2)) v w).val (.data n) = e.mem.val (.data n) ∧ (e.mem.append (.data (2 * k + 2)) v w).len (.data n) = e.mem.len (.data n)) ∧
      (e.mem.append (.data (2 * k + 2)) v w).val (.data 0) = e.mem.val (.data 0) ∧ (e.mem.append (.data (2 * k + 2)) v w).len (.data 0) = e.mem.len (.data 0) := by
    intro k v w
    have h1 : ∀ n, n ≠ 2 * k + 2 → (e.mem.append (.data (2 * k + 2)) v w).val (.data n) = e.mem.val (.data n) ∧ (e.mem.append (.data (2 * k + 2)) v w).len (.data n) = e.mem.len (.data n) := by
      intro n hn
      constructor
      · funext i; simp [Mem.append, hn]
      · simp [Mem.append, hn]
    exact ⟨fun n hn => h1 n (by omega), h1 0 (by omega)⟩
  cases h with
  | store k v rel _ => exact ⟨rfl, rfl, key k v _⟩
  | load k i acq _ =>
    refine ⟨?_, rfl, fun _ _ => ⟨rfl, rfl⟩, rfl, rfl⟩
    funext u; simp only [Ev.St.load, upd]; split <;> simp_all
  | change k v acq rel => exact ⟨rfl, rfl, key k v _⟩
  | fenceAcq => exact ⟨rfl, rfl, fun _ _ => ⟨rfl, rfl⟩, rfl, rfl⟩
  | fenceRel => exact ⟨rfl, rfl, fun _ _ => ⟨rfl, rfl⟩, rfl, rfl⟩

theorem Other.step {N t : Nat} {e e' : Ev.St} (h : Other t e e') (ht : t < N) (hc : client (e.pc t) = true) : Ev.Step N t e e' := by
  cases h with
  | store k v rel hk => exact .store _ v rel ht hc hk
  | load k i acq hr => exact .load _ i acq ht hc hr
  | change k v acq rel => exact .change _ v acq rel ht hc
  | fenceAcq => exact .fenceAcq ht hc
  | fenceRel => exact .fenceRel ht hc

theorem chg_step {N t : Nat} {e : Ev.St} (ht : t < N) (hc : client (e.pc t) = true) (n : Nat) (v : Int) (acq rel : Bool) :
    Ev.Step N t e (chg e t n v acq rel) := .change n v acq rel ht hc

/-- A step of the pool is a step of the event count, or none. -/
theorem Step.ev {N dt t : Nat} {s s' : St} (st : Step dt t s s') (ht : t < N) (h : Fits (s.pc t) (s.ev.pc t)) :
    (s'.ev = s.ev ∨ Ev.Step N t s.ev s'.ev) ∧ Fits (s'.pc t) (s'.ev.pc t) ∧ (∀ v, v ≠ t → s'.pc v = s.pc v ∧ s'.ev.pc v = s.ev.pc v) := by
  have idle : ∀ {p}, s.pc t = p → (Fits p (s.ev.pc t) → s.ev.pc t = .idle) → s.ev.pc t = .idle := fun e f => f (e ▸ h)
  have cl : s.ev.pc t = .idle → client (s.ev.pc t) = true := fun e => by rw [e]; rfl
  have ne : ∀ (p : PPc) v, v ≠ t → upd s.pc t p v = s.pc v := fun p v hv => upd_ne _ _ hv
  have nev : ∀ (p : Ev.Pc) v, v ≠ t → upd s.ev.pc t p v = s.ev.pc v := fun p v hv => upd_ne _ _ hv
  have fit : ∀ {p : PPc} {q : Ev.Pc} {e : Ev.St}, e.pc t = q → Fits p q → Fits (upd s.pc t p t) (e.pc t) := by
    intro p q e h1 h2; rw [upd_same, h1]; exact h2
  cases st with
  | @other e hp ho =>
    have hi := idle hp id
    obtain ⟨e1, -⟩ := ho.frame
    refine ⟨.inr (ho.step ht (cl hi)), fit (e := e) (q := .idle) (by rw [e1, hi]) rfl, fun v hv => ⟨ne _ v hv, ?_⟩⟩
    show e.pc v = _
    rw [e1]
  | notifyOne hp =>
    refine ⟨.inr (.notify false ht (idle hp id)), ?_, fun v hv => ⟨ne _ v hv, nev _ v hv⟩⟩
    refine fit (e := doNotify s.ev t false) (upd_same _ _ _) ?_
    show _ ∨ _
    split <;> simp
  | push v hp => exact ⟨.inr (chg_step ht (cl (idle hp id)) ..), fit (e := s.ev) (idle hp id) rfl, fun v hv => ⟨ne _ v hv, rfl⟩⟩
  | postNotify hp =>
    refine ⟨.inr (.notify true ht (idle hp id)), ?_, fun v hv => ⟨ne _ v hv, nev _ v hv⟩⟩
    refine fit (e := doNotify s.ev t true) (upd_same _ _ _) ?_
    show _ ∨ _
    split <;> simp
  | @tellAll b hp hq =>
    refine ⟨.inr (.wakeAll ht hq), ?_, fun v hv => ⟨ne _ v hv, nev _ v hv⟩⟩
    refine fit (e := doWakeAll s.ev t) (upd_same _ _ _) ?_
    cases b <;> rfl
  | @tellOne b hp hq =>
    refine ⟨.inr (.wakeOne ht hq), ?_, fun v hv => ⟨ne _ v hv, nev _ v hv⟩⟩
    refine fit (e := { s.ev with pc := upd s.ev.pc t .idle }) (upd_same _ _ _) ?_
    cases b <;> rfl
  | @told b hp hq =>
    refine ⟨.inl rfl, ?_, fun v hv => ⟨ne _ v hv, rfl⟩⟩
    refine fit (e := s.ev) hq ?_
    cases b <;> rfl
  | pop hp => exact ⟨.inr (chg_step ht (cl (idle hp id)) ..), fit (e := s.ev) (idle hp id) rfl, fun v hv => ⟨ne _ v hv, rfl⟩⟩
  | prepare hp =>
    refine ⟨.inr (.prepare ht (idle hp id)), ?_, fun v hv => ⟨ne _ v hv, nev _ v hv⟩⟩
    exact fit (e := doPrepare s.ev t .prepared) (upd_same _ _ _) ⟨_, rfl⟩
  | popSome hp _ =>
    rw [hp] at h
    obtain ⟨k, hk⟩ := h
    exact ⟨.inr (chg_step ht (by rw [hk]; rfl) ..), fit (e := s.ev) hk ⟨k, rfl⟩, fun v hv => ⟨ne _ v hv, rfl⟩⟩
  | popNone hp _ =>
    rw [hp] at h
    obtain ⟨k, hk⟩ := h
    exact ⟨.inr (chg_step ht (by rw [hk]; rfl) ..), fit (e := s.ev) hk ⟨k, rfl⟩, fun v hv => ⟨ne _ v hv, rfl⟩⟩
  | stopTest i hp hr =>
    rw [hp] at h
    obtain ⟨k, hk⟩ := h
    refine ⟨.inr (.load 0 i true ht (by rw [hk]; rfl) hr), ?_, fun v hv => ⟨ne _ v hv, nev _ v hv⟩⟩
    refine fit (e := s.ev.load t 0 i true (s.ev.pc t)) (upd_same _ _ _) ?_
    rw [hk]
    split <;> exact ⟨k, rfl⟩
  | dec k v last hp =>
    rw [hp] at h
    obtain ⟨k', hk⟩ := h
    refine ⟨.inr (chg_step ht (by rw [hk]; rfl) ..), fit (e := s.ev) hk ?_, fun v hv => ⟨ne _ v hv, rfl⟩⟩
    cases last <;> exact ⟨k', rfl⟩
  | chk k i active hp hr =>
    rw [hp] at h
    obtain ⟨k', hk⟩ := h
    refine ⟨.inr (.load _ i true ht (by rw [hk]; rfl) hr), ?_, fun v hv => ⟨ne _ v hv, nev _ v hv⟩⟩
    refine fit (e := s.ev.load t (2 * k + 2) i true (s.ev.pc t)) (upd_same _ _ _) ?_
    rw [hk]
    cases active <;> exact ⟨k', rfl⟩
  | wait hp hk =>
    exact ⟨.inr (.wait ht hk), fit (e := { s.ev with pc := upd s.ev.pc t (.waiting _ false) }) (upd_same _ _ _) (.inl ⟨_, rfl⟩), fun v hv => ⟨ne _ v hv, nev _ v hv⟩⟩
  | @look k i hp hk hr =>
    refine ⟨.inr (.look ht hk hr), ?_, fun v hv => ⟨ne _ v hv, nev _ v hv⟩⟩
    refine fit (q := if epochOf (s.ev.mem.val .word i).toNat = k then .blocked k i false else .leaving false) (upd_same _ _ _) ?_
    split
    · exact .inr (.inl ⟨_, _, rfl⟩)
    · exact .inr (.inr rfl)
  | unblock hp hk =>
    exact ⟨.inr (.unblock ht hk), fit (e := { s.ev with pc := upd s.ev.pc t (.waiting _ false) }) (upd_same _ _ _) (.inl ⟨_, rfl⟩), fun v hv => ⟨ne _ v hv, nev _ v hv⟩⟩
  | leave hp hk => exact ⟨.inr (.leave (aw := false) ht hk), fit (e := s.ev.rmw t subWaiter 0 .idle) (upd_same _ _ _) rfl, fun v hv => ⟨ne _ v hv, nev _ v hv⟩⟩
  | @cancel b hp =>
    rw [hp] at h
    obtain ⟨k, hk⟩ := h
    refine ⟨.inr (.cancel ht hk), fit (e := s.ev.rmw t subWaiter 0 .idle) (upd_same _ _ _) ?_, fun v hv => ⟨ne _ v hv, nev _ v hv⟩⟩
    cases b <;> rfl
  | exitNotify hp =>
    refine ⟨.inr (.notify true ht (idle hp id)), ?_, fun v hv => ⟨ne _ v hv, nev _ v hv⟩⟩
    refine fit (e := doNotify s.ev t true) (upd_same _ _ _) ?_
    show _ ∨ _
    split <;> simp
  | quit k v hp => exact ⟨.inr (chg_step ht (cl (idle hp id)) ..), fit (e := s.ev) (idle hp id) rfl, fun v hv => ⟨ne _ v hv, rfl⟩⟩
  | quit2 hp => exact ⟨.inr (chg_step ht (cl (idle hp id)) ..), fit (e := s.ev) (idle hp id) rfl, fun v hv => ⟨ne _ v hv, rfl⟩⟩
  | stop hd hp hs => exact ⟨.inr (chg_step ht (cl (idle hp id)) ..), fit (e := s.ev) (idle hp id) rfl, fun v hv => ⟨ne _ v hv, rfl⟩⟩
  | stopNotify hp =>
    refine ⟨.inr (.notify true ht (idle hp id)), ?_, fun v hv => ⟨ne _ v hv, nev _ v hv⟩⟩
    refine fit (e := doNotify s.ev t true) (upd_same _ _ _) ?_
    show _ ∨ _
    split <;> simp

structure Base (N : Nat) (s : St) : Prop where
  fits : ∀ t, t < N → Fits (s.pc t) (s.ev.pc t)
  reach : Ev.Reach N s.ev

theorem Base.step {N dt t : Nat} {s s' : St} (h : Base N s) (ht : t < N) (st : Step dt t s s') : Base N s' := by
  obtain ⟨h1, h2, h3⟩ := st.ev ht (h.fits t ht)
  refine ⟨fun v hv => ?_, ?_⟩
  · by_cases e : v = t
    · subst e; exact h2
    · rw [(h3 v e).1, (h3 v e).2]; exact h.fits v hv
  · rcases h1 with h1 | h1
    · rw [h1]; exact h.reach
    · exact h.reach.step h1

theorem Reach.base {N dt : Nat} {s : St} (r : Reach N dt s) : Base N s := by
  induction r with
  | init => exact ⟨fun _ _ => rfl, .init _⟩
  | step _ ht st ih => exact ih.step ht st

end Verif.Weak.Sleep
