import Verif.Algo.FoldSpec
import Verif.Algo.LangLemmas
import Verif.Algo.MapLemmas

/-! Lemmas about `fold`. -/
namespace Verif.Algo
variable {V E : Type}

theorem cells_append (m : Mem Loc V) (head a b : Nat) :
    cells m head (a + b) = cells m head a ++ cells m (head + a) b := by
  simp [cells, List.range_add, Nat.add_assoc, Function.comp_def]

theorem cells_split (m : Mem Loc V) (head k len : Nat) (hk : k ≤ len) :
    cells m head len = cells m head k ++ cells m (head + k) (len - k) := by
  rw [← cells_append]; congr 1; omega

theorem cells_one (m : Mem Loc V) (head : Nat) : cells m head 1 = [m (.cell head)] := by
  simp [cells]

theorem cells_congr {m m' : Mem Loc V} (h : ∀ a, m' (.cell a) = m (.cell a)) (head len : Nat) :
    cells m' head len = cells m head len := by
  simp [cells, h]

variable {proj : V → Except E V} {bop : V → V → Except E V}

theorem Thrown.extend {zs e} (h : Thrown proj bop zs e) (l r : List V) : Thrown proj bop (l ++ zs ++ r) e := by
  cases h with
  | @proj pre x post _ h =>
    have := Thrown.proj (proj := proj) (bop := bop) (pre := l ++ pre) (post := post ++ r) h
    simpa [List.append_assoc] using this
  | @bop pre xs ys post a b _ h1 h2 h3 =>
    have := Thrown.bop (pre := l ++ pre) (post := post ++ r) h1 h2 h3
    simpa [List.append_assoc] using this

theorem reads2 {a b l : Loc} {i : Fin 2} (h : (fun i : Fin 2 => if i = 0 then a else b) i = l) : l = a ∨ l = b := by
  by_cases hi : i = 0
  · left; rw [← h]; exact if_pos hi
  · right; rw [← h]; exact if_neg hi

/-- The locations owned by the sub-tree at `path`. -/
def Own (path : List Bool) (l : Loc) : Prop := ∃ q k, l = .tmp (q ++ path) k

theorem own_child {b : Bool} {path l} (h : Own (b :: path) l) : Own path l := by
  obtain ⟨q, k, rfl⟩ := h
  exact ⟨q ++ [b], k, by simp⟩

theorem own_disjoint {path l} (h1 : Own (false :: path) l) (h2 : Own (true :: path) l) : False := by
  obtain ⟨q, k, rfl⟩ := h1
  obtain ⟨q', k', h⟩ := h2
  injection h with h _
  have := List.append_inj_right' h (by simp)
  simp at this

theorem tmp_not_own_child {b : Bool} {path : List Bool} {k : Nat} : ¬ Own (b :: path) (.tmp path k) := by
  rintro ⟨q, k', h⟩
  injection h with h _
  have := congrArg List.length h
  simp at this
  omega

/-- What a complete run of a fold over a range did. -/
structure FoldPost (proj : V → Except E V) (bop : V → V → Except E V) (ret : Loc) (path : List Bool)
    (head len : Nat) (m : Mem Loc V) (o : Out E) (m' : Mem Loc V) : Prop where
  frame : ∀ l, l ≠ ret → ¬ Own path l → m' l = m l
  ok : o = .ok → Bracketed proj bop (cells m head len) (m' ret)
  exn : ∀ e, o = .exn e → Thrown proj bop (cells m head len) e
  noub : o ≠ .ub

structure FoldFoot (p : Prog V E) (ret : Loc) (path : List Bool) : Prop where
  writes : ∀ l, Writes p l → l = ret ∨ Own path l
  reads : ∀ l, Reads p l → (∃ a, l = .cell a) ∨ Own path l

theorem foldLoop_foot (path : List Bool) (head k : Nat) :
    (∀ l, Writes (foldLoop proj bop (.tmp path 0) head k) l → Own path l) ∧
    (∀ l, Reads (foldLoop proj bop (.tmp path 0) head k) l → (∃ a, l = .cell a) ∨ Own path l) ∧
    RaceFree (foldLoop proj bop (.tmp path 0) head k) := by
  induction k generalizing head with
  | zero => exact ⟨fun _ h => h.elim, fun _ h => h.elim, trivial⟩
  | succ k ih =>
    obtain ⟨a, b, c⟩ := ih (head + 1)
    refine ⟨fun l h => ?_, fun l h => ?_, trivial, c⟩
    · rcases h with h | h
      · exact ⟨[], 0, h⟩
      · exact a l h
    · rcases h with ⟨i, h⟩ | h
      · rcases reads2 h with rfl | rfl
        · right; exact ⟨[], 0, rfl⟩
        · left; exact ⟨head, rfl⟩
      · exact b l h

theorem foldLoop_post (path : List Bool) (head k : Nat) {m o m'} (done : List V)
    (hd : Bracketed proj bop done (m (.tmp path 0)))
    (h : Run (foldLoop proj bop (.tmp path 0) head k) m o m') :
    (∀ l, l ≠ .tmp path 0 → m' l = m l) ∧
    (o = .ok → Bracketed proj bop (done ++ cells m head k) (m' (.tmp path 0))) ∧
    (∀ e, o = .exn e → Thrown proj bop (done ++ cells m head k) e) ∧ o ≠ .ub := by
  induction k generalizing head m o m' done with
  | zero =>
    cases h
    exact ⟨fun _ _ => rfl, fun _ => by simpa [cells] using hd, fun e he => (by cases he), by simp⟩
  | succ k ih =>
    have hc : cells m head (k + 1) = m (.cell head) :: cells m (head + 1) k := by
      rw [Nat.add_comm, cells_append, cells_one]; rfl
    cases h with
    | seqOk h1 h2 =>
      cases h1 with
      | @atomOk _ _ _ _ _ v hf =>
        replace hf : (proj (m (.cell head)) >>= bop (m (.tmp path 0))) = .ok v := hf
        cases hp : proj (m (.cell head)) with
        | error e => rw [hp] at hf; cases hf
        | ok x =>
          rw [hp] at hf
          have hb : bop (m (.tmp path 0)) x = .ok v := hf
          have hd' : Bracketed proj bop (done ++ [m (.cell head)]) (upd m (.tmp path 0) v (.tmp path 0)) := by
            simp only [upd, if_true]
            exact .node hd (.leaf hp) hb
          obtain ⟨a, b, c, d⟩ := ih (head + 1) _ hd' h2
          have hcc : cells (upd m (.tmp path 0) v) (head + 1) k = cells m (head + 1) k :=
            cells_congr (fun a => by simp [upd]) _ _
          rw [hcc, List.append_assoc, List.singleton_append, ← hc] at b c
          refine ⟨fun l hl => ?_, b, c, d⟩
          rw [a l hl]; simp [upd, hl]
    | seqAbort h1 ho =>
      cases h1 with
      | atomOk => exact absurd rfl ho
      | @atomErr _ _ _ _ _ e hf =>
        replace hf : (proj (m (.cell head)) >>= bop (m (.tmp path 0))) = .error e := hf
        refine ⟨fun _ _ => rfl, fun h => (by cases h), fun e' he => ?_, by simp⟩
        cases he
        rw [hc]
        cases hp : proj (m (.cell head)) with
        | error e2 =>
          rw [hp] at hf; cases hf
          exact .proj hp
        | ok x =>
          rw [hp] at hf
          have hb : bop (m (.tmp path 0)) x = .error e := hf
          have := Thrown.bop (pre := []) (post := cells m (head + 1) k) hd (.leaf hp) hb
          simpa using this

/-- The inner node shared by both recursions. -/
theorem foldNode {p q : Prog V E} {ret : Loc} {path : List Bool} {head len k : Nat} (hk : k ≤ len)
    (fp : FoldFoot p (.tmp path 1) (false :: path)) (fq : FoldFoot q (.tmp path 2) (true :: path))
    (rp : RaceFree p) (rq : RaceFree q)
    (pp : ∀ m o m', Run p m o m' → FoldPost proj bop (.tmp path 1) (false :: path) head k m o m')
    (pq : ∀ m o m', Run q m o m' → FoldPost proj bop (.tmp path 2) (true :: path) (head + k) (len - k) m o m') :
    FoldFoot (.seq (.par p q) (.atom2 ret (.tmp path 1) (.tmp path 2) bop)) ret path ∧
    RaceFree (.seq (.par p q) (.atom2 ret (.tmp path 1) (.tmp path 2) bop)) ∧
    ∀ m o m', Run (.seq (.par p q) (.atom2 ret (.tmp path 1) (.tmp path 2) bop)) m o m' →
      FoldPost proj bop ret path head len m o m' := by
  have own0 : ∀ k, Own path (.tmp path k) := fun k => ⟨[], k, by simp⟩
  refine ⟨⟨?_, ?_⟩, ⟨⟨⟨?_, ?_⟩, rp, rq⟩, trivial⟩, ?_⟩
  · rintro l ((h | h) | h)
    · rcases fp.writes l h with rfl | h
      · exact Or.inr (own0 1)
      · exact Or.inr (own_child h)
    · rcases fq.writes l h with rfl | h
      · exact Or.inr (own0 2)
      · exact Or.inr (own_child h)
    · exact Or.inl h
  · rintro l ((h | h) | ⟨i, h⟩)
    · exact (fp.reads l h).imp id own_child
    · exact (fq.reads l h).imp id own_child
    · right
      rcases reads2 h with rfl | rfl
      · exact own0 1
      · exact own0 2
  · intro l h
    have hl := fp.writes l h
    constructor
    · intro hr
      rcases fq.reads l hr with ⟨a, rfl⟩ | hr
      · rcases hl with hl | ⟨q, k, hl⟩ <;> cases hl
      · rcases hl with rfl | hl
        · exact tmp_not_own_child hr
        · exact own_disjoint hl hr
    · intro hw
      rcases fq.writes l hw with rfl | hw
      · rcases hl with hl | hl
        · injection hl; omega
        · exact tmp_not_own_child hl
      · rcases hl with rfl | hl
        · exact tmp_not_own_child hw
        · exact own_disjoint hl hw
  · intro l h hr
    have hl := fq.writes l h
    rcases fp.reads l hr with ⟨a, rfl⟩ | hr
    · rcases hl with hl | ⟨q, k, hl⟩ <;> cases hl
    · rcases hl with rfl | hl
      · exact tmp_not_own_child hr
      · exact own_disjoint hr hl
  · intro m o m' h
    have hsplit : ∀ mm : Mem Loc V, cells mm head len = cells mm head k ++ cells mm (head + k) (len - k) :=
      fun mm => cells_split mm head k len hk
    have join : ∀ o1 m2, Run (.par p q) m o1 m2 →
        (∀ l, ¬ Own path l → m2 l = m l) ∧ o1 ≠ .ub ∧
        (o1 = .ok → Bracketed proj bop (cells m head k) (m2 (.tmp path 1)) ∧
          Bracketed proj bop (cells m (head + k) (len - k)) (m2 (.tmp path 2))) ∧
        (∀ e, o1 = .exn e → Thrown proj bop (cells m head len) e) := by
      intro o1 m2 h
      cases h with
      | @par _ _ _ oa ma ob _ _ ha hb hj =>
        have A := pp _ _ _ ha
        have B := pq _ _ _ hb
        obtain ⟨j1, j2, j3⟩ := joinOut_props hj A.noub B.noub
        have hcm : ∀ hd ln, cells ma hd ln = cells m hd ln := by
          intro hd ln
          apply cells_congr; intro a
          apply A.frame
          · intro h; cases h
          · rintro ⟨_, _, h⟩; cases h
        refine ⟨fun l hl => ?_, j3, fun h => ?_, fun e he => ?_⟩
        · rw [B.frame l (fun h => hl (h ▸ own0 2)) (fun h => hl (own_child h)),
            A.frame l (fun h => hl (h ▸ own0 1)) (fun h => hl (own_child h))]
        · obtain ⟨h1, h2⟩ := j1 h
          have b1 := A.ok h1
          have b2 := B.ok h2
          rw [hcm] at b2
          refine ⟨?_, b2⟩
          rw [B.frame (.tmp path 1) (by intro h; injection h; omega) tmp_not_own_child]
          exact b1
        · rw [hsplit]
          rcases j2 e he with h | h
          · have := (A.exn e h).extend [] (cells m (head + k) (len - k))
            simpa using this
          · have := (B.exn e h).extend (cells m head k) []
            rw [hcm] at this
            simpa using this
    cases h with
    | @seqOk _ _ _ m1 _ _ h1 h2 =>
      obtain ⟨fr, _, hok, _⟩ := join _ _ h1
      obtain ⟨b1, b2⟩ := hok rfl
      cases h2 with
      | @atomOk _ _ _ _ _ v hf =>
        replace hf : bop (m1 (.tmp path 1)) (m1 (.tmp path 2)) = .ok v := hf
        refine ⟨fun l hl ho => ?_, fun _ => ?_, fun e he => (by cases he), by simp⟩
        · simp [upd, hl, fr l ho]
        · rw [hsplit]; simp only [upd, if_true]; exact .node b1 b2 hf
      | @atomErr _ _ _ _ _ e hf =>
        replace hf : bop (m' (.tmp path 1)) (m' (.tmp path 2)) = .error e := hf
        refine ⟨fun l hl ho => fr l ho, fun h => (by cases h), fun e' he => ?_, by simp⟩
        cases he
        rw [hsplit]
        have := Thrown.bop (pre := []) (post := []) b1 b2 hf
        simpa using this
    | seqAbort h1 ho =>
      obtain ⟨fr, nu, _, he⟩ := join _ _ h1
      exact ⟨fun l _ hl => fr l hl, fun h => absurd h ho, he, nu⟩

theorem foldN_all (n : Nat) (hn : 1 < n) (len : Nat) (hlen : 0 < len) (ret : Loc) (path : List Bool) (head : Nat) :
    FoldFoot (foldN proj bop n ret path head len) ret path ∧
    RaceFree (foldN proj bop n ret path head len) ∧
    ∀ m o m', Run (foldN proj bop n ret path head len) m o m' → FoldPost proj bop ret path head len m o m' := by
  induction len using Nat.strongRecOn generalizing ret path head with
  | ind len ih =>
    have own0 : ∀ k, Own path (.tmp path k) := fun k => ⟨[], k, by simp⟩
    rw [foldN, if_neg (by omega), if_neg (by omega)]
    by_cases h1 : len ≤ n
    · rw [if_pos h1]
      obtain ⟨lw, lr, lf⟩ := foldLoop_foot (proj := proj) (bop := bop) path (head + 1) (len - 1)
      refine ⟨⟨?_, ?_⟩, ⟨trivial, lf, trivial⟩, ?_⟩
      · rintro l (h | h | h)
        · exact Or.inr ⟨[], 0, h⟩
        · exact Or.inr (lw l h)
        · exact Or.inl h
      · rintro l (⟨i, h⟩ | h | ⟨i, h⟩)
        · exact Or.inl ⟨head, h.symm⟩
        · exact lr l h
        · exact Or.inr ⟨[], 0, h.symm⟩
      · intro m o m' h
        have hc : cells m head len = [m (.cell head)] ++ cells m (head + 1) (len - 1) := by
          rw [cells_split m head 1 len (by omega), cells_one]
        cases h with
        | @seqOk _ _ _ m1 _ _ h1 h2 =>
          cases h1 with
          | @atomOk _ _ _ _ _ v hf =>
            have hd : Bracketed proj bop [m (.cell head)] (upd m (.tmp path 0) v (.tmp path 0)) := by
              simp only [upd, if_true]; exact .leaf hf
            have hcc : cells (upd m (.tmp path 0) v) (head + 1) (len - 1) = cells m (head + 1) (len - 1) :=
              cells_congr (fun a => by simp [upd]) _ _
            cases h2 with
            | @seqOk _ _ _ m2 _ _ h3 h4 =>
              obtain ⟨a, b, c, d⟩ := foldLoop_post path (head + 1) (len - 1) _ hd h3
              rw [hcc, ← hc] at b c
              cases h4 with
              | @atomOk _ _ _ _ _ v2 hf2 =>
                cases hf2
                refine ⟨fun l hl ho => ?_, fun _ => ?_, fun e he => (by cases he), by simp⟩
                · have hl0 : l ≠ .tmp path 0 := fun h => ho (h ▸ own0 0)
                  simp only [upd, hl, if_false]
                  rw [a l hl0]; simp [upd, hl0]
                · simp only [upd, if_true]; exact b rfl
              | atomErr hf2 => cases hf2
            | seqAbort h3 ho =>
              obtain ⟨a, b, c, d⟩ := foldLoop_post path (head + 1) (len - 1) _ hd h3
              rw [hcc, ← hc] at b c
              refine ⟨fun l hl ho' => ?_, fun h => absurd h ho, c, d⟩
              have hl0 : l ≠ .tmp path 0 := fun h => ho' (h ▸ own0 0)
              rw [a l hl0]; simp [upd, hl0]
        | seqAbort h1 ho =>
          cases h1 with
          | atomOk => exact absurd rfl ho
          | @atomErr _ _ _ _ _ e hf =>
            refine ⟨fun _ _ _ => rfl, fun h => (by cases h), fun e' he => ?_, by simp⟩
            cases he
            rw [hc]
            exact Thrown.proj (pre := []) hf
    · rw [if_neg h1, if_neg (by omega)]
      have ca := ih (len / 2) (by omega) (by omega) (.tmp path 1) (false :: path) head
      have cb := ih (len - len / 2) (by omega) (by omega) (.tmp path 2) (true :: path) (head + len / 2)
      exact foldNode (by omega) ca.1 cb.1 ca.2.1 cb.2.1 ca.2.2 cb.2.2

theorem foldOne_all (len : Nat) (hlen : 0 < len) (ret : Loc) (path : List Bool) (head : Nat) :
    FoldFoot (foldOne proj bop ret path head len) ret path ∧
    RaceFree (foldOne proj bop ret path head len) ∧
    ∀ m o m', Run (foldOne proj bop ret path head len) m o m' → FoldPost proj bop ret path head len m o m' := by
  induction len using Nat.strongRecOn generalizing ret path head with
  | ind len ih =>
    rw [foldOne, if_neg (by omega)]
    by_cases h1 : len = 1
    · rw [if_pos h1]; subst h1
      refine ⟨⟨fun l h => Or.inl h, fun l h => ?_⟩, trivial, ?_⟩
      · obtain ⟨i, h⟩ := h; exact Or.inl ⟨head, h.symm⟩
      · intro m o m' h
        cases h with
        | @atomOk _ _ _ _ _ v hf =>
          refine ⟨fun l hl ho => by simp [upd, hl], fun _ => ?_, fun e he => (by cases he), by simp⟩
          simp only [upd, if_true, cells_one]; exact .leaf hf
        | @atomErr _ _ _ _ _ e hf =>
          refine ⟨fun _ _ _ => rfl, fun h => (by cases h), fun e' he => ?_, by simp⟩
          cases he
          rw [cells_one]
          exact Thrown.proj (pre := []) hf
    · rw [if_neg h1, if_neg (by omega)]
      have ca := ih (len / 2) (by omega) (by omega) (.tmp path 1) (false :: path) head
      have cb := ih (len - len / 2) (by omega) (by omega) (.tmp path 2) (true :: path) (head + len / 2)
      exact foldNode (by omega) ca.1 cb.1 ca.2.1 cb.2.1 ca.2.2 cb.2.2

theorem Bracketed.total {pr : V → V} {op : V → V → V} (hp : ∀ x, proj x = .ok (pr x))
    (hb : ∀ a b, bop a b = .ok (op a b)) (assoc : ∀ a b c, op (op a b) c = op a (op b c))
    {zs v} (h : Bracketed proj bop zs v) :
    ∃ x xs, zs = x :: xs ∧ v = (xs.map pr).foldl op (pr x) := by
  induction h with
  | @leaf x v h =>
    refine ⟨x, [], rfl, ?_⟩
    rw [hp] at h; cases h; rfl
  | @node xs ys a b v _ _ hv ih1 ih2 =>
    obtain ⟨x, xs', rfl, rfl⟩ := ih1
    obtain ⟨y, ys', rfl, rfl⟩ := ih2
    refine ⟨x, xs' ++ y :: ys', rfl, ?_⟩
    rw [hb] at hv; cases hv
    rw [List.map_append, List.foldl_append, List.map_cons, List.foldl_cons]
    generalize (xs'.map pr).foldl op (pr x) = u
    generalize pr y = w
    generalize ys'.map pr = l
    induction l generalizing w with
    | nil => rfl
    | cons z l ih => simp only [List.foldl_cons]; rw [ih, assoc]

theorem Bracketed.proj_ok {zs v} (h : Bracketed proj bop zs v) : ∀ x ∈ zs, ∃ y, proj x = .ok y := by
  induction h with
  | leaf h => intro x hx; simp at hx; subst hx; exact ⟨_, h⟩
  | node _ _ _ ih1 ih2 =>
    intro x hx
    rcases List.mem_append.1 hx with h | h
    · exact ih1 x h
    · exact ih2 x h

end Verif.Algo
