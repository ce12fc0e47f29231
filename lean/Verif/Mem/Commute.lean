import Verif.Mem.Serial

/-! Steps of different tasks commute if they do not race. -/
namespace Verif.Mem
open Verif.Exn (errs oks)

variable {σ V E L : Type} [DecidableEq L]
variable {body : σ → Act σ V E L} {may : E → Prop} {ok : (σ → Prop) → σ → Prop}

section
variable {α : Type}
omit [DecidableEq L]

theorem set_same (f : Nat → α) (i : Nat) (a : α) : set f i a i = a := by simp [set]
theorem set_ne (f : Nat → α) {i j : Nat} (a : α) (h : j ≠ i) : set f i a j = f j := by simp [set, h]
theorem set_self (f : Nat → α) (i : Nat) {a : α} (h : f i = a) : set f i a = f := by
  funext j; simp only [set]; split
  · rename_i e; rw [e, h]
  · rfl
theorem set_set (f : Nat → α) (i : Nat) (a b : α) : set (set f i a) i b = set f i b := by
  funext j; simp only [set]; split <;> rfl
theorem set_comm (f : Nat → α) {i j : Nat} (a b : α) (h : i ≠ j) : set (set f i a) j b = set (set f j b) i a := by
  funext k; simp only [set]; split
  · rename_i e; rw [if_neg (by rw [e]; exact h.symm)]
  · rfl
end

/-- What a step of a task does: to itself, the task it makes, what it reads and writes. -/
structure U (σ V E L : Type) where
  st : σ
  mode : Mode V E
  kids : List Nat
  threw : List E
  new : Option (Nat × σ)
  rd : Option L
  wr : Option (L × E)
  acc : List (Acc E L)

def U.base (u : U σ V E L) (a : FJ σ V E L) : FJ σ V E L :=
  match u.new with
  | none => a
  | some (n, c) => a.new n c

/-- What may be written is written. -/
def putO (m : L → E) : Option (L × E) → L → E
  | none => m
  | some (l, d) => put m l d

theorem putO_ne {m : L → E} {w : Option (L × E)} {l : L} (h : ∀ d, w ≠ some (l, d)) : putO m w l = m l := by
  rcases w with _ | ⟨l', d⟩
  · rfl
  · simp only [putO, put]
    rw [if_neg]
    rintro rfl
    exact h d rfl

theorem putO_comm {m : L → E} {w w' : Option (L × E)} (h : ∀ l d l' d', w = some (l, d) → w' = some (l', d') → l ≠ l') :
    putO (putO m w) w' = putO (putO m w') w := by
  rcases w with _ | ⟨l, d⟩ <;> rcases w' with _ | ⟨l', d'⟩ <;> try rfl
  have := h l d l' d' rfl rfl
  funext x
  simp only [putO, put]
  grind

def U.app (u : U σ V E L) (f : Nat) (a : FJ σ V E L) : FJ σ V E L :=
  { st := set (u.base a).st f u.st, mode := set (u.base a).mode f u.mode, kids := set (u.base a).kids f u.kids
    threw := set (u.base a).threw f u.threw, roots := a.roots
    m := putO a.m u.wr
    hist := u.acc ++ a.hist }

/-- `f` waits for `n`. -/
def Waits (a : FJ σ V E L) (f n : Nat) : Prop := a.mode f = .called n ∨ a.mode f = .forked n ∨ n ∈ a.kids f

/-- As far as `f` is concerned, `b` is as `a`, where `u` is what it does. -/
structure Like (u : U σ V E L) (f : Nat) (a b : FJ σ V E L) : Prop where
  st : b.st f = a.st f
  mode : b.mode f = a.mode f
  kids : b.kids f = a.kids f
  threw : b.threw f = a.threw f
  ended : ∀ n, Waits a f n → ∀ r, a.mode n = .ended r → b.mode n = .ended r
  new : ∀ n c, u.new = some (n, c) → b.mode n = .none
  rd : ∀ l, u.rd = some l → b.m l = a.m l

/-- What is to be known about a step. -/
structure View (body : σ → Act σ V E L) (may : E → Prop) (f : Nat) (a b : FJ σ V E L) (u : U σ V E L) : Prop where
  eq : b = u.app f a
  live : a.mode f ≠ .none ∧ ∀ r, a.mode f ≠ .ended r
  mode : u.mode ≠ .none
  new : ∀ n c, u.new = some (n, c) → a.mode n = .none
  rd : ∀ l, u.rd = some l → a.mode f = .run ∧ ∃ k, body (a.st f) = .load l k
  wr : ∀ l d, u.wr = some (l, d) → a.mode f = .run ∧ ∃ k, body (a.st f) = .store l d k
  ends : ∀ r, u.mode = .ended r → a.mode f = .run ∧ ((∃ v, body (a.st f) = .ret v) ∨ ∃ e, body (a.st f) = .throw e)
  kids : ∀ c ∈ a.kids f, c ∈ u.kids ∨ ∃ r, a.mode c = .ended r
  call : ∀ n, a.mode f = .called n → ∃ r, a.mode n = .ended r
  again : ∀ a', Like u f a a' → FJ.Step body may f a' (u.app f a')

section
omit [DecidableEq L]
theorem ended_of {mode mode' : Nat → Mode V E} {ks : List Nat} {rs : List (Except E V)} (h : Ended mode ks rs)
    (hm : ∀ n ∈ ks, ∀ r, mode n = .ended r → mode' n = .ended r) : Ended mode' ks rs := by
  induction h with
  | nil => exact .nil
  | @cons c r ks rs h1 _ ih =>
    exact .cons (hm c (List.mem_cons_self ..) r h1) (ih fun n hn => hm n (List.mem_cons_of_mem _ hn))

theorem ended_mem {mode : Nat → Mode V E} {ks : List Nat} {rs : List (Except E V)} (h : Ended mode ks rs) {c : Nat} (hc : c ∈ ks) :
    ∃ r, mode c = .ended r := by
  induction h with
  | nil => cases hc
  | @cons c' r ks rs h1 _ ih =>
    rcases List.mem_cons.1 hc with rfl | hc
    · exact ⟨r, h1⟩
    · exact ih hc

theorem ended_fun {mode : Nat → Mode V E} {ks : List Nat} {rs rs' : List (Except E V)} (h : Ended mode ks rs) (h' : Ended mode ks rs') : rs = rs' := by
  induction h generalizing rs' with
  | nil => cases h'; rfl
  | @cons c r ks rs h1 _ ih =>
    cases h' with
    | cons h2 h3 => rw [h1] at h2; cases h2; rw [ih h3]

theorem ended_snoc {mode : Nat → Mode V E} {ks : List Nat} {rs : List (Except E V)} (h : Ended mode ks rs) {c : Nat} {r : Except E V}
    (hc : mode c = .ended r) : Ended mode (ks ++ [c]) (rs ++ [r]) := by
  induction h with
  | nil => exact .cons hc .nil
  | cons h1 _ ih => exact .cons h1 ih
end

/-- What a step does. -/
theorem view {f : Nat} {a b : FJ σ V E L} (h : FJ.Step body may f a b) : ∃ u, View body may f a b u := by
  cases h with
  | ret v h1 h2 =>
    refine ⟨⟨a.st f, .ended (.ok v), a.kids f, a.threw f, none, none, none, []⟩, ?_, ?_, ?_, ?_, ?_, ?_, ?_, ?_, ?_, ?_⟩
    · simp [U.app, U.base, putO, set_self]
    · rw [h1]; simp
    · simp
    · simp
    · simp
    · simp
    · intro r hr; exact ⟨h1, Or.inl ⟨v, h2⟩⟩
    · intro c hc; exact Or.inl hc
    · intro n hn; rw [h1] at hn; cases hn
    · intro a' hl
      have : (⟨a.st f, .ended (.ok v), a.kids f, a.threw f, none, none, none, []⟩ : U σ V E L).app f a' = { a' with mode := set a'.mode f (.ended (.ok v)) } := by
        simp [U.app, U.base, putO, set_self _ _ hl.st, set_self _ _ hl.kids, set_self _ _ hl.threw]
      rw [this]
      exact .ret a' v (hl.mode.trans h1) (by rw [hl.st]; exact h2)
  | throw e h1 h2 =>
    refine ⟨⟨a.st f, .ended (.error e), a.kids f, a.threw f, none, none, none, []⟩, ?_, ?_, ?_, ?_, ?_, ?_, ?_, ?_, ?_, ?_⟩
    · simp [U.app, U.base, putO, set_self]
    · rw [h1]; simp
    · simp
    · simp
    · simp
    · simp
    · intro r hr; exact ⟨h1, Or.inr ⟨e, h2⟩⟩
    · intro c hc; exact Or.inl hc
    · intro n hn; rw [h1] at hn; cases hn
    · intro a' hl
      have : (⟨a.st f, .ended (.error e), a.kids f, a.threw f, none, none, none, []⟩ : U σ V E L).app f a' = { a' with mode := set a'.mode f (.ended (.error e)) } := by
        simp [U.app, U.base, putO, set_self _ _ hl.st, set_self _ _ hl.kids, set_self _ _ hl.threw]
      rw [this]
      exact .throw a' e (hl.mode.trans h1) (by rw [hl.st]; exact h2)
  | fork n c k x h1 h2 h3 =>
    have hne : n ≠ f := by rintro rfl; rw [h1] at h3; cases h3
    refine ⟨⟨a.st f, .forked n, a.kids f ++ [n], a.threw f, some (n, c), none, none, []⟩, ?_, ?_, ?_, ?_, ?_, ?_, ?_, ?_, ?_, ?_⟩
    · simp [U.app, U.base, putO, FJ.new, set_comm _ _ _ hne, set_self]
    · rw [h1]; simp
    · simp
    · rintro n' c' hn; cases hn; exact h3
    · simp
    · simp
    · intro r hr; cases hr
    · intro c hc; exact Or.inl (List.mem_append_left _ hc)
    · intro n hn; rw [h1] at hn; cases hn
    · intro a' hl
      have : (⟨a.st f, .forked n, a.kids f ++ [n], a.threw f, some (n, c), none, none, []⟩ : U σ V E L).app f a' =
          { a'.new n c with mode := set (a'.new n c).mode f (.forked n), kids := set (a'.new n c).kids f (a'.kids f ++ [n]) } := by
        simp [U.app, U.base, putO, FJ.new, set_comm _ _ _ hne, set_self _ _ hl.st, set_self _ _ hl.threw, hl.kids]
      rw [this]
      exact .fork a' n c k x (hl.mode.trans h1) (by rw [hl.st]; exact h2) (hl.new n c rfl)
  | resume n c k x b h1 h2 h3 =>
    refine ⟨⟨k b, .run, a.kids f, a.threw f, none, none, none, []⟩, ?_, ?_, ?_, ?_, ?_, ?_, ?_, ?_, ?_, ?_⟩
    · simp [U.app, U.base, putO, set_self, FJ.on]
    · rw [h1]; simp
    · simp
    · simp
    · simp
    · simp
    · intro r hr; cases hr
    · intro c hc; exact Or.inl hc
    · intro n hn; rw [h1] at hn; cases hn
    · intro a' hl
      have : (⟨k b, .run, a.kids f, a.threw f, none, none, none, []⟩ : U σ V E L).app f a' = a'.on f (k b) := by
        simp [U.app, U.base, putO, FJ.on, set_self _ _ hl.kids, set_self _ _ hl.threw]
      rw [this]
      refine .resume a' n c k x b (hl.mode.trans h1) (by rw [hl.st]; exact h2) fun hb => ?_
      obtain ⟨r, hr⟩ := h3 hb
      exact ⟨r, hl.ended n (Or.inr (Or.inl h1)) r hr⟩
  | call n c k x h1 h2 h3 =>
    have hne : n ≠ f := by rintro rfl; rw [h1] at h3; cases h3
    refine ⟨⟨a.st f, .called n, a.kids f, a.threw f, some (n, c), none, none, []⟩, ?_, ?_, ?_, ?_, ?_, ?_, ?_, ?_, ?_, ?_⟩
    · simp [U.app, U.base, putO, FJ.new, set_comm _ _ _ hne, set_self]
    · rw [h1]; simp
    · simp
    · rintro n' c' hn; cases hn; exact h3
    · simp
    · simp
    · intro r hr; cases hr
    · intro c hc; exact Or.inl hc
    · intro n hn; rw [h1] at hn; cases hn
    · intro a' hl
      have : (⟨a.st f, .called n, a.kids f, a.threw f, some (n, c), none, none, []⟩ : U σ V E L).app f a' =
          { a'.new n c with mode := set (a'.new n c).mode f (.called n) } := by
        simp [U.app, U.base, putO, FJ.new, set_comm _ _ _ hne, set_self _ _ hl.st, set_self _ _ hl.threw, set_self _ _ hl.kids]
      rw [this]
      exact .call a' n c k x (hl.mode.trans h1) (by rw [hl.st]; exact h2) (hl.new n c rfl)
  | back n r c k x h1 h3 h2 =>
    refine ⟨⟨k r.toOption, .run, a.kids f, also (a.threw f) r, none, none, none, []⟩, ?_, ?_, ?_, ?_, ?_, ?_, ?_, ?_, ?_, ?_⟩
    · simp [U.app, U.base, putO, set_self, FJ.on]
    · rw [h1]; simp
    · simp
    · simp
    · simp
    · simp
    · intro r hr; cases hr
    · intro c hc; exact Or.inl hc
    · intro n' hn; rw [h1] at hn; cases hn; exact ⟨r, h3⟩
    · intro a' hl
      have : (⟨k r.toOption, .run, a.kids f, also (a.threw f) r, none, none, none, []⟩ : U σ V E L).app f a' =
          { a'.on f (k r.toOption) with threw := set a'.threw f (also (a'.threw f) r) } := by
        simp [U.app, U.base, putO, FJ.on, set_self _ _ hl.kids, hl.threw]
      rw [this]
      exact .back a' n r c k x (hl.mode.trans h1) (hl.ended n (Or.inl h1) r h3) (by rw [hl.st]; exact h2)
  | join rs k x h1 h2 h3 h4 h5 =>
    refine ⟨⟨k (oks rs), .run, [], a.threw f, none, none, none, []⟩, ?_, ?_, ?_, ?_, ?_, ?_, ?_, ?_, ?_, ?_⟩
    · simp [U.app, U.base, putO, set_self, FJ.on]
    · rw [h1]; simp
    · simp
    · simp
    · simp
    · simp
    · intro r hr; cases hr
    · intro c hc; exact Or.inr (ended_mem h3 hc)
    · intro n' hn; rw [h1] at hn; cases hn
    · intro a' hl
      have : (⟨k (oks rs), .run, [], a.threw f, none, none, none, []⟩ : U σ V E L).app f a' =
          { a'.on f (k (oks rs)) with kids := set a'.kids f [] } := by
        simp [U.app, U.base, putO, FJ.on, set_self _ _ hl.threw]
      rw [this]
      exact .join a' rs k x (hl.mode.trans h1) (by rw [hl.st]; exact h2)
        (by rw [hl.kids]; exact ended_of h3 fun n hn r => hl.ended n (Or.inr (Or.inr hn)) r) h4 (hl.threw.trans h5)
  | rethrow rs e k x h1 h2 h3 h4 =>
    refine ⟨⟨x e (rs.map Except.toOption), .run, [], [], none, none, none, []⟩, ?_, ?_, ?_, ?_, ?_, ?_, ?_, ?_, ?_, ?_⟩
    · simp [U.app, U.base, putO, FJ.on]
    · rw [h1]; simp
    · simp
    · simp
    · simp
    · simp
    · intro r hr; cases hr
    · intro c hc; exact Or.inr (ended_mem h3 hc)
    · intro n' hn; rw [h1] at hn; cases hn
    · intro a' hl
      have : (⟨x e (rs.map Except.toOption), .run, [], [], none, none, none, []⟩ : U σ V E L).app f a' =
          { a'.on f (x e (rs.map Except.toOption)) with kids := set a'.kids f [], threw := set a'.threw f [] } := by
        simp [U.app, U.base, putO, FJ.on]
      rw [this]
      exact .rethrow a' rs e k x (hl.mode.trans h1) (by rw [hl.st]; exact h2)
        (by rw [hl.kids]; exact ended_of h3 fun n hn r => hl.ended n (Or.inr (Or.inr hn)) r) (by rw [hl.threw]; exact h4)
  | switch d k x h1 h2 =>
    refine ⟨⟨k, .run, a.kids f, a.threw f, none, none, none, []⟩, ?_, ?_, ?_, ?_, ?_, ?_, ?_, ?_, ?_, ?_⟩
    · simp [U.app, U.base, putO, set_self, FJ.on]
    · rw [h1]; simp
    · simp
    · simp
    · simp
    · simp
    · intro r hr; cases hr
    · intro c hc; exact Or.inl hc
    · intro n hn; rw [h1] at hn; cases hn
    · intro a' hl
      have : (⟨k, .run, a.kids f, a.threw f, none, none, none, []⟩ : U σ V E L).app f a' = a'.on f k := by
        simp [U.app, U.base, putO, FJ.on, set_self _ _ hl.kids, set_self _ _ hl.threw]
      rw [this]
      exact .switch a' d k x (hl.mode.trans h1) (by rw [hl.st]; exact h2)
  | forkFails e c k x h1 h2 h3 =>
    refine ⟨⟨x e, .run, a.kids f, a.threw f, none, none, none, []⟩, ?_, ?_, ?_, ?_, ?_, ?_, ?_, ?_, ?_, ?_⟩
    · simp [U.app, U.base, putO, set_self, FJ.on]
    · rw [h1]; simp
    · simp
    · simp
    · simp
    · simp
    · intro r hr; cases hr
    · intro c hc; exact Or.inl hc
    · intro n hn; rw [h1] at hn; cases hn
    · intro a' hl
      have : (⟨x e, .run, a.kids f, a.threw f, none, none, none, []⟩ : U σ V E L).app f a' = a'.on f (x e) := by
        simp [U.app, U.base, putO, FJ.on, set_self _ _ hl.kids, set_self _ _ hl.threw]
      rw [this]
      exact .forkFails a' e c k x (hl.mode.trans h1) (by rw [hl.st]; exact h2) h3
  | callFails e c k x h1 h2 h3 =>
    refine ⟨⟨x e, .run, a.kids f, a.threw f, none, none, none, []⟩, ?_, ?_, ?_, ?_, ?_, ?_, ?_, ?_, ?_, ?_⟩
    · simp [U.app, U.base, putO, set_self, FJ.on]
    · rw [h1]; simp
    · simp
    · simp
    · simp
    · simp
    · intro r hr; cases hr
    · intro c hc; exact Or.inl hc
    · intro n hn; rw [h1] at hn; cases hn
    · intro a' hl
      have : (⟨x e, .run, a.kids f, a.threw f, none, none, none, []⟩ : U σ V E L).app f a' = a'.on f (x e) := by
        simp [U.app, U.base, putO, FJ.on, set_self _ _ hl.kids, set_self _ _ hl.threw]
      rw [this]
      exact .callFails a' e c k x (hl.mode.trans h1) (by rw [hl.st]; exact h2) h3
  | switchFails e d k x h1 h2 h3 =>
    refine ⟨⟨x e, .run, a.kids f, a.threw f, none, none, none, []⟩, ?_, ?_, ?_, ?_, ?_, ?_, ?_, ?_, ?_, ?_⟩
    · simp [U.app, U.base, putO, set_self, FJ.on]
    · rw [h1]; simp
    · simp
    · simp
    · simp
    · simp
    · intro r hr; cases hr
    · intro c hc; exact Or.inl hc
    · intro n hn; rw [h1] at hn; cases hn
    · intro a' hl
      have : (⟨x e, .run, a.kids f, a.threw f, none, none, none, []⟩ : U σ V E L).app f a' = a'.on f (x e) := by
        simp [U.app, U.base, putO, FJ.on, set_self _ _ hl.kids, set_self _ _ hl.threw]
      rw [this]
      exact .switchFails a' e d k x (hl.mode.trans h1) (by rw [hl.st]; exact h2) h3
  | load l k h1 h2 =>
    refine ⟨⟨k (a.m l), .run, a.kids f, a.threw f, none, some l, none, [.load f l (a.m l)]⟩, ?_, ?_, ?_, ?_, ?_, ?_, ?_, ?_, ?_, ?_⟩
    · simp [U.app, U.base, putO, set_self, FJ.on]
    · rw [h1]; simp
    · simp
    · simp
    · rintro l' hl; cases hl; exact ⟨h1, k, h2⟩
    · simp
    · intro r hr; cases hr
    · intro c hc; exact Or.inl hc
    · intro n hn; rw [h1] at hn; cases hn
    · intro a' hl
      have : (⟨k (a.m l), .run, a.kids f, a.threw f, none, some l, none, [.load f l (a.m l)]⟩ : U σ V E L).app f a' =
          { a'.on f (k (a'.m l)) with hist := .load f l (a'.m l) :: a'.hist } := by
        simp [U.app, U.base, putO, FJ.on, set_self _ _ hl.kids, set_self _ _ hl.threw, hl.rd l rfl]
      rw [this]
      exact .load a' l k (hl.mode.trans h1) (by rw [hl.st]; exact h2)
  | store l d k h1 h2 =>
    refine ⟨⟨k, .run, a.kids f, a.threw f, none, none, some (l, d), [.store f l d]⟩, ?_, ?_, ?_, ?_, ?_, ?_, ?_, ?_, ?_, ?_⟩
    · simp [U.app, U.base, putO, set_self, FJ.on]
    · rw [h1]; simp
    · simp
    · simp
    · simp
    · rintro l' d' hl; cases hl; exact ⟨h1, k, h2⟩
    · intro r hr; cases hr
    · intro c hc; exact Or.inl hc
    · intro n hn; rw [h1] at hn; cases hn
    · intro a' hl
      have : (⟨k, .run, a.kids f, a.threw f, none, none, some (l, d), [.store f l d]⟩ : U σ V E L).app f a' =
          { a'.on f k with m := put a'.m l d, hist := .store f l d :: a'.hist } := by
        simp [U.app, U.base, putO, FJ.on, set_self _ _ hl.kids, set_self _ _ hl.threw]
      rw [this]
      exact .store a' l d k (hl.mode.trans h1) (by rw [hl.st]; exact h2)

end Verif.Mem
