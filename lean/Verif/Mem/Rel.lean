import Verif.Mem.Spec
import Verif.Exn.Props

/-! How a state of the runtime and one of the fork/join machine correspond. -/
namespace Verif.Mem
open Verif.Runtime (Ev Why Link upd status forked)
open Verif.Exn (errs oks held allHeld)

variable {σ V E L : Type}

/-- What a history says a task waits for. -/
def modeOf (f : Nat) : List (Ev σ (Except E V)) → Mode V E
  | [] => .run
  | .submit g _ _ :: l => if g = f then .run else modeOf f l
  | .resume g _ :: l => if g = f then .run else modeOf f l
  | .suspend g (.fork c) :: l => if g = f then .forked c else modeOf f l
  | .suspend g (.call c) :: l => if g = f then .called c else modeOf f l
  | .suspend g .join :: l => if g = f then .run else modeOf f l
  | .suspend g (.switch _) :: l => if g = f then .run else modeOf f l
  | .done g r :: l => if g = f then .ended r else modeOf f l

def modeSt : Runtime.Status → Mode V E → Prop
  | .done, m => ∃ r, m = .ended r
  | .waiting (.fork c), m => m = .forked c
  | .waiting (.call c), m => m = .called c
  | _, m => m = .run

theorem status_mode (f : Nat) (l : List (Ev σ (Except E V))) : modeSt (status f l) (modeOf f l) := by
  induction l with
  | nil => rfl
  | cons e l ih =>
    cases e with
    | submit g c w => simp only [status, modeOf]; split <;> first | rfl | exact ih
    | resume g w => simp only [status, modeOf]; split <;> first | rfl | exact ih
    | done g r => simp only [status, modeOf]; split <;> first | exact ⟨_, rfl⟩ | exact ih
    | suspend g y => cases y <;> simp only [status, modeOf] <;> split <;> first | rfl | exact ih

theorem mode_of_status {f : Nat} {l : List (Ev σ (Except E V))} {x : Runtime.Status} (h : status f l = x) : modeSt x (modeOf f l) := by
  rw [← h]; exact status_mode f l

theorem ended_iff {f : Nat} {l : List (Ev σ (Except E V))} : (∃ r, modeOf f l = .ended r) ↔ status f l = .done := by
  have h := status_mode f l
  constructor
  · rintro ⟨r, hr⟩
    rw [hr] at h
    cases hs : status f l with
    | done => rfl
    | waiting y => rw [hs] at h; cases y <;> cases h
    | _ => rw [hs] at h; cases h
  · intro hs; rw [hs] at h; exact h

/-- What a return object holds when its child has come this far. -/
def slotOf : Mode V E → Option (Except E V)
  | .ended (.ok v) => some (.ok v)
  | _ => none

def ExcOk (a : FJ σ V E L) (log : List (Ev σ (Except E V))) (p : Nat) : Option E → Prop
  | none => a.threw p = [] ∧ ∀ c ∈ a.kids p, ∀ e, modeOf c log ≠ .ended (.error e)
  | some e => e ∈ a.threw p ∨ ∃ c ∈ a.kids p, modeOf c log = .ended (.error e)

theorem mem_subs {l : List (Ev σ (Except E V))} {f : Nat} {c : σ} : (f, c) ∈ subs l ↔ ∃ w, Ev.submit f c w ∈ l := by
  induction l with
  | nil => simp [subs]
  | cons e l ih =>
    cases e with
    | submit g d w =>
      simp only [subs, List.mem_cons, ih, Prod.mk.injEq, Ev.submit.injEq]
      constructor
      · rintro (⟨h1, h2⟩ | ⟨v, hv⟩)
        · exact ⟨w, Or.inl ⟨h1, h2, rfl⟩⟩
        · exact ⟨v, Or.inr hv⟩
      · rintro ⟨v, ⟨h1, h2, _⟩ | hv⟩
        · exact Or.inl ⟨h1, h2⟩
        · exact Or.inr ⟨v, hv⟩
    | _ => simp [subs, ih]

structure Rel (nf : Nat) (link : Nat → Link) (st : Nat → σ) (slots : Nat → List (Option (Except E V))) (log : List (Ev σ (Except E V)))
    (exc : Nat → Option E) (a : FJ σ V E L) : Prop where
  un : ∀ f, nf ≤ f → a.mode f = .none
  st : ∀ f, f < nf → a.st f = st f
  mode : ∀ f, f < nf → a.mode f = modeOf f log
  len : ∀ p, p < nf → (a.kids p).length = (slots p).length
  kid : ∀ p, p < nf → ∀ i c, (a.kids p)[i]? = some c → c < nf ∧ link c = .fork p i ∧ c ∈ forked p log ∧
    (slots p)[i]? = some (slotOf (modeOf c log))
  up : ∀ c p i, c < nf → link c = .fork p i → (∀ r, modeOf c log ≠ .ended r) → p < nf ∧ (a.kids p)[i]? = some c
  cal : ∀ c p, c < nf → link c = .call p → (∀ r, modeOf c log ≠ .ended r) → p < nf ∧ modeOf p log = .called c
  exc : ∀ p, p < nf → ExcOk a log p (exc p)
  rts : a.roots = subs log
  rlt : ∀ f c, (f, c) ∈ a.roots → f < nf

variable {nf : Nat} {link : Nat → Link} {st : Nat → σ} {slots : Nat → List (Option (Except E V))} {log : List (Ev σ (Except E V))}
  {exc : Nat → Option E} {a : FJ σ V E L}

theorem un_set {mode : Nat → Mode V E} (h : ∀ f, nf ≤ f → mode f = .none) {p : Nat} (hp : p < nf) (x : Mode V E) (f : Nat) (hf : nf ≤ f) :
    set mode p x f = .none := by
  simp only [set]; rw [if_neg (by omega)]; exact h f hf

/-- An event that changes no mode. -/
theorem Rel.event (h : Rel nf link st slots log exc a) (e : Ev σ (Except E V)) (hm : ∀ f, modeOf f (e :: log) = modeOf f log)
    (hf : ∀ p, forked p (e :: log) = forked p log) (hs : ∀ f c w, e ≠ .submit f c w) : Rel nf link st slots (e :: log) exc a := by
  refine ⟨h.un, h.st, fun f hf => by rw [hm]; exact h.mode f hf, h.len, ?_, ?_, ?_, ?_, ?_, h.rlt⟩
  · intro p hp i c hc; rw [hf, hm]; exact h.kid p hp i c hc
  · intro c p i; simp only [hm]; exact h.up c p i
  · intro c p; simp only [hm]; exact h.cal c p
  · intro p hp
    have := h.exc p hp
    unfold ExcOk at this ⊢
    split <;> rename_i e1 <;> rw [e1] at this <;> simp only [hm] <;> exact this
  · rw [h.rts]
    cases e with
    | submit f c w => exact absurd rfl (hs f c w)
    | _ => rfl

theorem mode_resume {f w : Nat} (h : modeOf f log = .run) (g : Nat) : modeOf g (.resume f w :: log) = modeOf g log := by
  simp only [modeOf]; split
  · rename_i e; rw [← e]; exact h.symm
  · rfl

theorem Rel.resume (h : Rel nf link st slots log exc a) {f w : Nat} (hm : modeOf f log = .run) :
    Rel nf link st slots (.resume f w :: log) exc a :=
  h.event _ (mode_resume hm) (fun _ => rfl) (fun _ _ _ h => by cases h)

theorem Rel.suspend (h : Rel nf link st slots log exc a) {f : Nat} {y : Why} (hm : modeOf f log = .run) (hy : y = .join ∨ ∃ d, y = .switch d) :
    Rel nf link st slots (.suspend f y :: log) exc a := by
  refine h.event _ (fun g => ?_) (fun p => ?_) (fun _ _ _ h => by cases h)
  · rcases hy with rfl | ⟨d, rfl⟩ <;> simp only [modeOf] <;> split <;> first | rfl | (rename_i e; rw [← e]; exact hm.symm)
  · rcases hy with rfl | ⟨d, rfl⟩ <;> rfl

/-- A running task goes on. -/
theorem Rel.on (h : Rel nf link st slots log exc a) {f : Nat} (hf : f < nf) (hm : modeOf f log = .run) (k : σ) :
    Rel nf link (fun g => if g = f then k else st g) slots log exc (a.on f k) := by
  refine ⟨un_set h.un hf _, ?_, ?_, h.len, h.kid, h.up, h.cal, h.exc, h.rts, h.rlt⟩
  · intro g hg; simp only [FJ.on, set]; split
    · rfl
    · exact h.st g hg
  · intro g hg; simp only [FJ.on, set]; split
    · rename_i e; rw [e]; exact hm.symm
    · exact h.mode g hg

/-- The memory and the history of accesses are not mentioned. -/
theorem Rel.mem (h : Rel nf link st slots log exc a) (m : L → E) (hist : List (Acc E L)) : Rel nf link st slots log exc { a with m := m, hist := hist } :=
  ⟨h.un, h.st, h.mode, h.len, h.kid, h.up, h.cal, h.exc, h.rts, h.rlt⟩

theorem Rel.fork (h : Rel nf link st slots log exc a) {f w : Nat} (hf : f < nf) (hm : modeOf f log = .run) (c : σ) :
    Rel (nf + 1) (fun g => if g = nf then .fork f (slots f).length else link g) (fun g => if g = nf then c else st g)
      (fun g => if g = f then slots f ++ [none] else if g = nf then [] else slots g)
      (.resume nf w :: .suspend f (.fork nf) :: log) (fun g => if g = nf then none else exc g)
      { a.new nf c with mode := set (a.new nf c).mode f (.forked nf), kids := set (a.new nf c).kids f (a.kids f ++ [nf]) } := by
  have hne : f ≠ nf := by omega
  have hmode : ∀ g, modeOf g (.resume nf w :: .suspend f (.fork nf) :: log) = if g = nf then .run else if g = f then .forked nf else modeOf g log := by
    intro g; simp only [modeOf]
    by_cases e1 : nf = g
    · rw [if_pos e1, if_pos e1.symm]
    · rw [if_neg e1, if_neg (Ne.symm e1)]
      by_cases e2 : f = g
      · rw [if_pos e2, if_pos e2.symm]
      · rw [if_neg e2, if_neg (Ne.symm e2)]
  have hfk : ∀ p, forked p (.resume nf w :: .suspend f (.fork nf) :: log) = if f = p then nf :: forked p log else forked p log := fun p => rfl
  have hold : ∀ g r, g < nf → (modeOf g (.resume nf w :: .suspend f (.fork nf) :: log) = .ended r ↔ modeOf g log = .ended r) := by
    intro g r hg
    rw [hmode, if_neg (by omega)]
    split
    · rename_i e; rw [e, hm]; simp
    · rfl
  have hslot : ∀ g, g < nf → slotOf (modeOf g (.resume nf w :: .suspend f (.fork nf) :: log)) = slotOf (modeOf g log) := by
    intro g hg
    rw [hmode, if_neg (by omega)]
    split
    · rename_i e; rw [e, hm]; rfl
    · rfl
  refine ⟨?_, ?_, ?_, ?_, ?_, ?_, ?_, ?_, ?_, ?_⟩
  · intro g hg; simp only [FJ.new, set]; rw [if_neg (by omega), if_neg (by omega)]; exact h.un g (by omega)
  · intro g hg; simp only [FJ.new, set]; split
    · rfl
    · exact h.st g (by omega)
  · intro g hg; rw [hmode]; simp only [FJ.new, set]
    by_cases e1 : g = nf
    · rw [if_pos e1, if_pos e1, if_neg (by omega)]
    · rw [if_neg e1, if_neg e1]; split
      · rfl
      · exact h.mode g (by omega)
  · intro p hp; simp only [FJ.new, set]
    split
    · rename_i e; rw [List.length_append, List.length_append, h.len f hf]; rfl
    · split
      · rfl
      · exact h.len p (by omega)
  · intro p hp i c' hc
    rw [hfk]
    simp only [FJ.new, set] at hc
    by_cases e : p = f
    · subst e
      rw [if_pos rfl] at hc
      rw [if_pos rfl, if_pos rfl]
      rcases Nat.lt_or_ge i (a.kids p).length with hi | hi
      · rw [List.getElem?_append_left hi] at hc
        obtain ⟨k1, k2, k3, k4⟩ := h.kid p hf i c' hc
        refine ⟨by omega, by rw [if_neg (by omega)]; exact k2, List.mem_cons_of_mem _ k3, ?_⟩
        rw [List.getElem?_append_left (by rw [← h.len p hf]; exact hi), hslot c' k1]; exact k4
      · rw [List.getElem?_append_right hi] at hc
        have hi2 : i = (a.kids p).length := by
          rcases Nat.lt_or_ge (i - (a.kids p).length) 1 with h1 | h1
          · omega
          · rw [List.getElem?_eq_none (by simpa using h1)] at hc; cases hc
        subst hi2
        simp only [Nat.sub_self, List.getElem?_cons_zero, Option.some.injEq] at hc
        subst hc
        refine ⟨by omega, by rw [if_pos rfl, h.len p hf], List.mem_cons_self .., ?_⟩
        rw [h.len p hf, List.getElem?_append_right (Nat.le_refl _), hmode, if_pos rfl]
        simp [slotOf]
    · rw [if_neg e] at hc
      by_cases e2 : p = nf
      · rw [if_pos e2] at hc; simp at hc
      · rw [if_neg e2] at hc
        obtain ⟨k1, k2, k3, k4⟩ := h.kid p (by omega) i c' hc
        rw [if_neg e, if_neg e2, if_neg (Ne.symm e)]
        exact ⟨by omega, by rw [if_neg (by omega)]; exact k2, k3, by rw [hslot c' k1]; exact k4⟩
  · intro c' p i hc hl hnd
    simp only [FJ.new, set]
    by_cases e : c' = nf
    · rw [if_pos e] at hl
      cases hl
      subst e
      refine ⟨by omega, ?_⟩
      rw [if_pos rfl, ← h.len f hf, List.getElem?_append_right (Nat.le_refl _)]; simp
    · rw [if_neg e] at hl
      obtain ⟨k1, k2⟩ := h.up c' p i (by omega) hl (fun r hr => hnd r ((hold c' r (by omega)).2 hr))
      refine ⟨by omega, ?_⟩
      split
      · rename_i e; subst e
        rw [List.getElem?_append_left (by
          rcases Nat.lt_or_ge i (a.kids p).length with hi | hi
          · exact hi
          · rw [List.getElem?_eq_none hi] at k2; cases k2)]; exact k2
      · rw [if_neg (by omega)]; exact k2
  · intro c' p hc hl hnd
    by_cases e : c' = nf
    · rw [if_pos e] at hl; cases hl
    · rw [if_neg e] at hl
      obtain ⟨k1, k2⟩ := h.cal c' p (by omega) hl (fun r hr => hnd r ((hold c' r (by omega)).2 hr))
      refine ⟨by omega, ?_⟩
      rw [hmode, if_neg (by omega), if_neg (by rintro rfl; rw [hm] at k2; cases k2)]; exact k2
  · intro p hp
    simp only
    by_cases e : p = nf
    · rw [if_pos e]
      simp [ExcOk, FJ.new, set, e, hne.symm]
    · rw [if_neg e]
      have hx := h.exc p (by omega)
      have hk : ∀ c', c' ∈ (set (a.new nf c).kids f (a.kids f ++ [nf])) p → c' ∈ a.kids p ∨ (p = f ∧ c' = nf) := by
        intro c' hc'
        simp only [set, FJ.new] at hc'
        split at hc'
        · rename_i e2; subst e2
          rcases List.mem_append.1 hc' with h1 | h1
          · exact Or.inl h1
          · exact Or.inr ⟨rfl, by simpa using h1⟩
        · exact Or.inl hc'
      have hk' : ∀ c', c' ∈ a.kids p → c' ∈ (set (a.new nf c).kids f (a.kids f ++ [nf])) p := by
        intro c' hc'
        simp only [set, FJ.new]
        split
        · rename_i e2; subst e2; exact List.mem_append_left _ hc'
        · exact hc'
      have hthr : (set a.threw nf []) p = a.threw p := by simp [set, e]
      have klt : ∀ c', c' ∈ a.kids p → c' < nf := by
        intro c' hc'
        obtain ⟨i, hi⟩ := List.getElem?_of_mem hc'
        exact (h.kid p (by omega) i c' hi).1
      cases hex : exc p with
      | none =>
        rw [hex] at hx
        refine ⟨by show (set a.threw nf []) p = []; rw [hthr]; exact hx.1, fun c' hc' er => ?_⟩
        rcases hk c' hc' with h1 | ⟨_, h1⟩
        · exact fun hh => hx.2 c' h1 er ((hold c' _ (klt c' h1)).1 hh)
        · rw [hmode, if_pos h1]; simp
      | some er =>
        rw [hex] at hx
        rcases hx with h1 | ⟨c', h1, h2⟩
        · left; show er ∈ (set a.threw nf []) p; rw [hthr]; exact h1
        · right; exact ⟨c', hk' c' h1, (hold c' _ (klt c' h1)).2 h2⟩
  · exact h.rts
  · intro g c' hg
    have := h.rlt g c' hg; omega

theorem Rel.call (h : Rel nf link st slots log exc a) {f w : Nat} (hf : f < nf) (hm : modeOf f log = .run) (c : σ) :
    Rel (nf + 1) (fun g => if g = nf then .call f else link g) (fun g => if g = nf then c else st g)
      (fun g => if g = nf then [] else slots g)
      (.resume nf w :: .suspend f (.call nf) :: log) (fun g => if g = nf then none else exc g)
      { a.new nf c with mode := set (a.new nf c).mode f (.called nf) } := by
  have hne : f ≠ nf := by omega
  have hmode : ∀ g, modeOf g (.resume nf w :: .suspend f (.call nf) :: log) = if g = nf then .run else if g = f then .called nf else modeOf g log := by
    intro g; simp only [modeOf]
    by_cases e1 : nf = g
    · rw [if_pos e1, if_pos e1.symm]
    · rw [if_neg e1, if_neg (Ne.symm e1)]
      by_cases e2 : f = g
      · rw [if_pos e2, if_pos e2.symm]
      · rw [if_neg e2, if_neg (Ne.symm e2)]
  have hold : ∀ g r, g < nf → (modeOf g (.resume nf w :: .suspend f (.call nf) :: log) = .ended r ↔ modeOf g log = .ended r) := by
    intro g r hg
    rw [hmode, if_neg (by omega)]
    split
    · rename_i e; rw [e, hm]; simp
    · rfl
  have hslot : ∀ g, g < nf → slotOf (modeOf g (.resume nf w :: .suspend f (.call nf) :: log)) = slotOf (modeOf g log) := by
    intro g hg
    rw [hmode, if_neg (by omega)]
    split
    · rename_i e; rw [e, hm]; rfl
    · rfl
  have hk : ∀ p, p ≠ nf → (set a.kids nf []) p = a.kids p := by intro p hp; simp [set, hp]
  refine ⟨?_, ?_, ?_, ?_, ?_, ?_, ?_, ?_, ?_, ?_⟩
  · intro g hg; simp only [FJ.new, set]; rw [if_neg (by omega), if_neg (by omega)]; exact h.un g (by omega)
  · intro g hg; simp only [FJ.new, set]; split
    · rfl
    · exact h.st g (by omega)
  · intro g hg; rw [hmode]; simp only [FJ.new, set]
    by_cases e1 : g = nf
    · rw [if_pos e1, if_pos e1, if_neg (by omega)]
    · rw [if_neg e1, if_neg e1]; split
      · rfl
      · exact h.mode g (by omega)
  · intro p hp; simp only [FJ.new, set]
    split
    · rfl
    · exact h.len p (by omega)
  · intro p hp i c' hc
    by_cases e2 : p = nf
    · simp only [FJ.new, set] at hc
      rw [if_pos e2] at hc; simp at hc
    · have hc : ((set a.kids nf []) p)[i]? = some c' := hc
      rw [hk p e2] at hc
      obtain ⟨k1, k2, k3, k4⟩ := h.kid p (by omega) i c' hc
      rw [if_neg e2]
      exact ⟨by omega, by rw [if_neg (by omega)]; exact k2, k3, by rw [hslot c' k1]; exact k4⟩
  · intro c' p i hc hl hnd
    by_cases e : c' = nf
    · rw [if_pos e] at hl; cases hl
    · rw [if_neg e] at hl
      obtain ⟨k1, k2⟩ := h.up c' p i (by omega) hl (fun r hr => hnd r ((hold c' r (by omega)).2 hr))
      refine ⟨by omega, ?_⟩
      show ((set a.kids nf []) p)[i]? = _
      rw [hk p (by omega)]; exact k2
  · intro c' p hc hl hnd
    by_cases e : c' = nf
    · rw [if_pos e] at hl; cases hl
      exact ⟨by omega, by rw [hmode, if_neg hne, if_pos rfl, e]⟩
    · rw [if_neg e] at hl
      obtain ⟨k1, k2⟩ := h.cal c' p (by omega) hl (fun r hr => hnd r ((hold c' r (by omega)).2 hr))
      refine ⟨by omega, ?_⟩
      rw [hmode, if_neg (by omega), if_neg (by rintro rfl; rw [hm] at k2; cases k2)]; exact k2
  · intro p hp
    simp only
    by_cases e : p = nf
    · rw [if_pos e]
      simp [ExcOk, FJ.new, set, e]
    · rw [if_neg e]
      have hx := h.exc p (by omega)
      have hthr : (set a.threw nf []) p = a.threw p := by simp [set, e]
      have klt : ∀ c', c' ∈ a.kids p → c' < nf := by
        intro c' hc'
        obtain ⟨i, hi⟩ := List.getElem?_of_mem hc'
        exact (h.kid p (by omega) i c' hi).1
      cases hex : exc p with
      | none =>
        rw [hex] at hx
        refine ⟨by show (set a.threw nf []) p = []; rw [hthr]; exact hx.1, fun c' hc' er => ?_⟩
        have hc' : c' ∈ (set a.kids nf []) p := hc'
        rw [hk p e] at hc'
        exact fun hh => hx.2 c' hc' er ((hold c' _ (klt c' hc')).1 hh)
      | some er =>
        rw [hex] at hx
        rcases hx with h1 | ⟨c', h1, h2⟩
        · left; show er ∈ (set a.threw nf []) p; rw [hthr]; exact h1
        · right; exact ⟨c', by show c' ∈ (set a.kids nf []) p; rw [hk p e]; exact h1, (hold c' _ (klt c' h1)).2 h2⟩
  · exact h.rts
  · intro g c' hg
    have := h.rlt g c' hg; omega

theorem Rel.submit (h : Rel nf link st slots log exc a) {w : Nat} (c : σ) :
    Rel (nf + 1) (fun g => if g = nf then .root else link g) (fun g => if g = nf then c else st g)
      (fun g => if g = nf then [] else slots g) (.submit nf c w :: log) (fun g => if g = nf then none else exc g) (a.submit nf c) := by
  have hmode : ∀ g, g ≠ nf → modeOf g (.submit nf c w :: log) = modeOf g log := by
    intro g hg; simp only [modeOf]; rw [if_neg (Ne.symm hg)]
  have hk : ∀ p, p ≠ nf → (set a.kids nf []) p = a.kids p := by intro p hp; simp [set, hp]
  refine ⟨?_, ?_, ?_, ?_, ?_, ?_, ?_, ?_, ?_, ?_⟩
  · intro g hg; simp only [FJ.submit, FJ.new, set]; rw [if_neg (by omega)]; exact h.un g (by omega)
  · intro g hg; simp only [FJ.submit, FJ.new, set]; split
    · rfl
    · exact h.st g (by omega)
  · intro g hg; simp only [FJ.submit, FJ.new, set, modeOf]
    by_cases e1 : g = nf
    · rw [if_pos e1, if_pos e1.symm]
    · rw [if_neg e1, if_neg (Ne.symm e1)]; exact h.mode g (by omega)
  · intro p hp; simp only [FJ.submit, FJ.new, set]
    split
    · rfl
    · exact h.len p (by omega)
  · intro p hp i c' hc
    by_cases e2 : p = nf
    · simp only [FJ.submit, FJ.new, set] at hc
      rw [if_pos e2] at hc; simp at hc
    · have hc : ((set a.kids nf []) p)[i]? = some c' := hc
      rw [hk p e2] at hc
      obtain ⟨k1, k2, k3, k4⟩ := h.kid p (by omega) i c' hc
      rw [if_neg e2]
      exact ⟨by omega, by rw [if_neg (by omega)]; exact k2, k3, by rw [hmode c' (by omega)]; exact k4⟩
  · intro c' p i hc hl hnd
    by_cases e : c' = nf
    · rw [if_pos e] at hl; cases hl
    · rw [if_neg e] at hl
      rw [hmode c' e] at hnd
      obtain ⟨k1, k2⟩ := h.up c' p i (by omega) hl hnd
      refine ⟨by omega, ?_⟩
      show ((set a.kids nf []) p)[i]? = _
      rw [hk p (by omega)]; exact k2
  · intro c' p hc hl hnd
    by_cases e : c' = nf
    · rw [if_pos e] at hl; cases hl
    · rw [if_neg e] at hl
      rw [hmode c' e] at hnd
      obtain ⟨k1, k2⟩ := h.cal c' p (by omega) hl hnd
      exact ⟨by omega, by rw [hmode p (by omega)]; exact k2⟩
  · intro p hp
    show ExcOk _ _ p (if p = nf then none else exc p)
    by_cases e : p = nf
    · rw [if_pos e]
      simp [ExcOk, FJ.submit, FJ.new, set, e]
    · rw [if_neg e]
      have hx := h.exc p (by omega)
      have hthr : (set a.threw nf []) p = a.threw p := by simp [set, e]
      have klt : ∀ c', c' ∈ a.kids p → c' < nf := by
        intro c' hc'
        obtain ⟨i, hi⟩ := List.getElem?_of_mem hc'
        exact (h.kid p (by omega) i c' hi).1
      cases hex : exc p with
      | none =>
        rw [hex] at hx
        refine ⟨by show (set a.threw nf []) p = []; rw [hthr]; exact hx.1, fun c' hc' er => ?_⟩
        have hc' : c' ∈ (set a.kids nf []) p := hc'
        rw [hk p e] at hc'
        rw [hmode c' (by have := klt c' hc'; omega)]
        exact hx.2 c' hc' er
      | some er =>
        rw [hex] at hx
        rcases hx with h1 | ⟨c', h1, h2⟩
        · left; show er ∈ (set a.threw nf []) p; rw [hthr]; exact h1
        · right; exact ⟨c', by show c' ∈ (set a.kids nf []) p; rw [hk p e]; exact h1, by rw [hmode c' (by have := klt c' h1; omega)]; exact h2⟩
  · simp only [FJ.submit, subs, h.rts]
  · intro g c' hg
    have hg : (g, c') ∈ (nf, c) :: a.roots := hg
    rcases List.mem_cons.1 hg with e | hg
    · cases e; omega
    · have := h.rlt g c' hg; omega

end Verif.Mem
