import Verif.Mem.Order2
import Verif.Mem.Props

/-! C62: without races, programs compute what they compute when run by one thread. -/
namespace Verif.Mem
open Verif.Exn (errs oks)
open Verif.Runtime (Ev)

variable {σ V E L : Type} [DecidableEq L]
variable {body : σ → Act σ V E L} {may : E → Prop} {ok : (σ → Prop) → σ → Prop} {m : L → E} {pend : σ → Nat} {dirty : σ → Prop}

theorem tr_roots {a z : FJ σ V E L} {n : Nat} (h : Tr body may ok a n z) : ∃ l, z.roots = l ++ a.roots := by
  induction h with
  | nil a => exact ⟨[], rfl⟩
  | step f h1 _ ih =>
    obtain ⟨l, hl⟩ := ih
    obtain ⟨u, hu⟩ := view h1
    exact ⟨l, by rw [hl, hu.eq]; rfl⟩
  | @submit a z n i c _ _ _ ih =>
    obtain ⟨l, hl⟩ := ih
    exact ⟨l ++ [(i, c)], by rw [hl]; simp [FJ.submit]⟩

/-- No task has anything left to do. -/
def Quiet (a : FJ σ V E L) : Prop := ∀ g, a.mode g = .none ∨ ∃ r, a.mode g = .ended r

theorem runs (hd : Disc body pend dirty) (hp : ∀ O c, ok O c → pend c = 0) (hmono : Mono ok) (hrf : RaceFree body may ok m) (n : Nat) :
    ∀ {a z : FJ σ V E L}, FJ.Reach body may ok m a → Quiet a → Tr body may ok a n z → (∀ p ∈ z.roots, ∃ r, z.mode p.1 = .ended r) →
      ∃ new l, z.roots = new ++ a.roots ∧ l.map Prod.fst = new.reverse.map Prod.snd ∧ Ended z.mode (new.reverse.map Prod.fst) (l.map Prod.snd) ∧
        Runs body may a.m l z.m := by
  induction n using Nat.strongRecOn with
  | _ n ih =>
  intro a z ha hq htr hz
  cases htr with
  | nil => exact ⟨[], [], rfl, rfl, .nil, .nil⟩
  | step f h1 h2 =>
    exfalso
    obtain ⟨u, hu⟩ := view h1
    rcases hq f with h | ⟨r, h⟩
    · exact hu.live.1 h
    · exact hu.live.2 r h
  | @submit _ _ k i c h1 h2 h3 =>
    obtain ⟨l0, hl0⟩ := tr_roots h3
    obtain ⟨r, hr⟩ := hz (i, c) (by rw [hl0]; simp [FJ.submit])
    obtain ⟨a', z', k', g1, g2, g3, g4, g5, g6, g7⟩ := serial hd hp hmono hrf k (f := i) (r := r) (rs := []) (.submit i c ha h1 h2) h3 (set_same _ _ _)
      (by simp only [FJ.submit, FJ.new, set_same]; exact .nil) hr
    simp only [FJ.submit, FJ.new, set_same] at g6
    have hq' : Quiet a' := by
      intro g
      by_cases e : g = i
      · subst e; exact Or.inr ⟨r, g5⟩
      · have e1 : (a.submit i c).mode g = a.mode g := set_ne _ _ e
        rcases hq g with h | ⟨r', h⟩
        · exact g7.new g e (e1.trans h)
        · exact Or.inr ⟨r', by rw [g7.mode g e (by rw [e1, h]; simp), e1]; exact h⟩
    obtain ⟨new, l, j1, j2, j3, j4⟩ := ih k' (by omega) g2 hq' g3 (by rw [g4.roots, g4.mode]; exact hz)
    rw [g4.roots] at j1
    rw [g4.mode] at j3
    rw [g4.m] at j4
    refine ⟨new ++ [(i, c)], (c, r) :: l, ?_, ?_, ?_, .cons g6 j4⟩
    · rw [j1, g7.roots]; simp [FJ.submit]
    · simp [j2]
    · simp only [List.reverse_append, List.reverse_cons, List.reverse_nil, List.nil_append, List.cons_append, List.map_cons]
      exact .cons hr j3

/-- C62: if no execution of the fork/join machine has a data race, then in every execution, whenever all the tasks that were submitted have ended,
memory and results are what they are when the tasks are run one after another, by one thread, in the order in which they were submitted. -/
theorem C62_serial (hd : Disc body pend dirty) (hp : ∀ O c, ok O c → pend c = 0) (hmono : Mono ok) (hrf : RaceFree body may ok m) {a : FJ σ V E L}
    (h : FJ.Reach body may ok m a) (hz : ∀ p ∈ a.roots, ∃ r, a.mode p.1 = .ended r) : ∃ l, Results a l ∧ Runs body may m l a.m := by
  obtain ⟨y, n, htr⟩ := tr_of_reach h
  obtain ⟨new, l, h1, h2, h3, h4⟩ := runs hd hp hmono hrf n (.start y) (fun g => Or.inl rfl) htr hz
  simp only [FJ.start, List.append_nil] at h1
  rw [← h1] at h2 h3
  exact ⟨l, ⟨h2, h3⟩, h4⟩

variable [Inhabited E]

theorem run_one (hd : Disc body pend dirty) {s : MS σ V E L} (h : Reach body pend may ok m s) {w v f : Nat} (h1 : s.x.c.pc w = .run f)
    (h2 : s.x.c.pc v = .run f) : w = v := by
  have hd' := disc_ctl hd
  obtain ⟨es, r, hr, hrel⟩ := Exn.reach_rel hd' (reach_x h) fun _ => .nil
  have hi := Verif.Runtime.reach_inv (Exn.disc_tgt hd') hr
  have e1 := (hi.loc.run w f).2 (Or.inl (by rw [hrel.base.pc]; exact h1))
  have e2 := (hi.loc.run v f).2 (Or.inl (by rw [hrel.base.pc]; exact h2))
  rw [e1] at e2; cases e2; rfl

/-- C62: then no two workers ever access the same location at the same time, one of them writing, -/
theorem C62_no_race (hd : Disc body pend dirty) (hrf : RaceFree body may ok m) {s : MS σ V E L} (h : Reach body pend may ok m s) : ¬ s.Race body := by
  rintro ⟨w, v, f, g, l, hne, h1, h2, h3, h4⟩
  obtain ⟨a, ha, _, _, _, _, hrun⟩ := C61_refines hd h
  obtain ⟨e1, e2⟩ := hrun w f h1
  obtain ⟨e3, e4⟩ := hrun v g h2
  refine hrf a ha ⟨f, g, l, ?_, e1, e3, by rw [e2]; exact h3, by rw [e4]; exact h4⟩
  rintro rfl
  exact hne (run_one hd h h1 h2)

/-- and whatever the workers do, whenever all the tasks that were submitted have ended, memory and results are those of the tasks run one after
another by one thread. -/
theorem C62_runtime (hd : Disc body pend dirty) (hp : ∀ O c, ok O c → pend c = 0) (hmono : Mono ok) (hrf : RaceFree body may ok m) {s : MS σ V E L}
    (h : Reach body pend may ok m s) (hz : ∀ f c w, Ev.submit f c w ∈ s.x.c.log → ∃ r, Ev.done f r ∈ s.x.c.log) :
    ∃ l : List (Nat × σ × Except E V), l.map (fun p => (p.1, p.2.1)) = (subs s.x.c.log).reverse ∧ (∀ p ∈ l, Ev.done p.1 p.2.2 ∈ s.x.c.log) ∧
      Runs body may m (l.map Prod.snd) s.m := by
  obtain ⟨a, ha, hm, _, hroots, hdone, _⟩ := C61_refines hd h
  obtain ⟨l, ⟨h1, h2⟩, h3⟩ := C62_serial hd hp hmono hrf ha (by
    rintro ⟨f, c⟩ hc
    rw [hroots] at hc
    obtain ⟨w, hw⟩ := mem_subs.1 hc
    obtain ⟨r, hr⟩ := hz f c w hw
    exact ⟨r, (hdone f r).2 hr⟩)
  rw [hroots] at h1 h2
  have key : ∀ (rt : List (Nat × σ)) (l : List (σ × Except E V)), l.map Prod.fst = rt.map Prod.snd → Ended a.mode (rt.map Prod.fst) (l.map Prod.snd) →
      ∃ l' : List (Nat × σ × Except E V), l'.map (fun p => (p.1, p.2.1)) = rt ∧ (∀ p ∈ l', Ev.done p.1 p.2.2 ∈ s.x.c.log) ∧ l'.map Prod.snd = l := by
    intro rt
    induction rt with
    | nil =>
      intro l e1 _
      have : l = [] := by simpa using e1
      subst this
      exact ⟨[], rfl, (fun p hp => nomatch hp), rfl⟩
    | cons p rt ih =>
      intro l e1 e2
      cases l with
      | nil => cases e1
      | cons q l =>
        simp only [List.map_cons, List.cons.injEq] at e1
        simp only [List.map_cons] at e2
        cases e2 with
        | cons e3 e4 =>
          obtain ⟨l', g1, g2, g3⟩ := ih l e1.2 e4
          refine ⟨(p.1, q.1, q.2) :: l', ?_, ?_, ?_⟩
          · simp only [List.map_cons, g1, e1.1]
          · intro x hx
            rcases List.mem_cons.1 hx with rfl | hx
            · exact (hdone _ _).1 e3
            · exact g2 x hx
          · simp only [List.map_cons, g3]
  obtain ⟨l', g1, g2, g3⟩ := key _ l (by rw [h1]) h2
  exact ⟨l', g1, g2, by rw [g3, ← hm]; exact h3⟩

end Verif.Mem
