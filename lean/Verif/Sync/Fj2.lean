import Verif.Sync.Fj

/-! The steps of the fork/join machine keep that. -/
namespace Verif.Sync
open Verif.Exn (errs oks)
open Verif.Mem (FJ Mode Ended set also)

variable {σ V E L : Type} {body : σ → Act σ V E L}

theorem seen_ret {s : St σ} {v : V} (h : seen body s = .ret v) : ∃ y, s = .here y ∧ body y = .plain (.ret v) := by
  cases s with
  | bad => cases h
  | answer y => simp only [seen] at h; split at h <;> cases h
  | here y =>
    simp only [seen] at h; split at h
    · rename_i a hb; cases a <;> simp only [lift] at h <;> cases h; exact ⟨y, rfl, hb⟩
    · cases h

theorem seen_throw {s : St σ} {e : E} (h : seen body s = .throw e) : ∃ y, s = .here y ∧ body y = .plain (.throw e) := by
  cases s with
  | bad => cases h
  | answer y => simp only [seen] at h; split at h <;> cases h
  | here y =>
    simp only [seen] at h; split at h
    · rename_i a hb; cases a <;> simp only [lift] at h <;> cases h; exact ⟨y, rfl, hb⟩
    · cases h

theorem seen_call {s c : St σ} {k x} (h : seen body s = .call c k x) : ∃ y c0 k0 x0, s = .here y ∧ body y = .plain (.call c0 k0 x0) ∧ c = .here c0 ∧
    k = (fun r => .here (k0 r)) ∧ x = fun e => .here (x0 e) := by
  cases s with
  | bad => cases h
  | answer y => simp only [seen] at h; split at h <;> cases h
  | here y =>
    simp only [seen] at h; split at h
    · rename_i a hb; cases a <;> simp only [lift] at h <;> cases h; exact ⟨y, _, _, _, rfl, hb, rfl, rfl, rfl⟩
    · cases h

theorem seen_fork {s c : St σ} {k x} (h : seen body s = .fork c k x) : ∃ y c0, s = .here y ∧ c = .here c0 ∧
    ((∃ k0 x0, body y = .plain (.fork c0 k0 x0) ∧ k = (fun b => .here (k0 b)) ∧ x = fun e => .here (x0 e)) ∨
     ∃ k0 x0, body y = .out c0 k0 x0 ∧ k = (fun b => if b then .answer y else .here (k0 none)) ∧ x = fun e => .here (x0 e)) := by
  cases s with
  | bad => cases h
  | answer y => simp only [seen] at h; split at h <;> cases h
  | here y =>
    simp only [seen] at h; split at h
    · rename_i a hb; cases a <;> simp only [lift] at h <;> cases h; exact ⟨y, _, rfl, rfl, Or.inl ⟨_, _, hb, rfl, rfl⟩⟩
    · rename_i hb; cases h; exact ⟨y, _, rfl, rfl, Or.inr ⟨_, _, hb, rfl, rfl⟩⟩

theorem seen_join {s : St σ} {k x} (h : seen body s = .join k x) : (∃ y k0 x0, s = .here y ∧ body y = .plain (.join k0 x0) ∧
      k = (fun l => .here (k0 l)) ∧ x = fun e l => .here (x0 e l)) ∨
    (∃ y c0 k0 x0, s = .answer y ∧ body y = .out c0 k0 x0 ∧ k = (one fun v => k0 (some v)) ∧ x = fun _ _ => .bad) ∨
    (∃ y a, s = .answer y ∧ body y = .plain a) ∨ s = .bad := by
  cases s with
  | bad => exact Or.inr (Or.inr (Or.inr rfl))
  | answer y =>
    simp only [seen] at h; split at h
    · rename_i a hb; exact Or.inr (Or.inr (Or.inl ⟨y, a, rfl, hb⟩))
    · rename_i hb; cases h; exact Or.inr (Or.inl ⟨y, _, _, _, rfl, hb, rfl, rfl⟩)
  | here y =>
    simp only [seen] at h; split at h
    · rename_i a hb; cases a <;> simp only [lift] at h <;> cases h; exact Or.inl ⟨y, _, _, rfl, hb, rfl, rfl⟩
    · cases h

theorem seen_switch {s k : St σ} {d : Nat} {x} (h : seen body s = .switch d k x) : ∃ y k0 x0, s = .here y ∧ body y = .plain (.switch d k0 x0) ∧
    k = .here k0 ∧ x = fun e => .here (x0 e) := by
  cases s with
  | bad => cases h
  | answer y => simp only [seen] at h; split at h <;> cases h
  | here y =>
    simp only [seen] at h; split at h
    · rename_i a hb; cases a <;> simp only [lift] at h <;> cases h; exact ⟨y, _, _, rfl, hb, rfl, rfl⟩
    · cases h

theorem seen_load {s : St σ} {l : L} {k} (h : seen body s = .load l k) : ∃ y k0, s = .here y ∧ body y = .plain (.load l k0) ∧ k = fun d => .here (k0 d) := by
  cases s with
  | bad => cases h
  | answer y => simp only [seen] at h; split at h <;> cases h
  | here y =>
    simp only [seen] at h; split at h
    · rename_i a hb; cases a <;> simp only [lift] at h <;> cases h; exact ⟨y, _, rfl, hb, rfl⟩
    · cases h

theorem seen_store {s k : St σ} {l : L} {d : E} (h : seen body s = .store l d k) : ∃ y k0, s = .here y ∧ body y = .plain (.store l d k0) ∧ k = .here k0 := by
  cases s with
  | bad => cases h
  | answer y => simp only [seen] at h; split at h <;> cases h
  | here y =>
    simp only [seen] at h; split at h
    · rename_i a hb; cases a <;> simp only [lift] at h <;> cases h; exact ⟨y, _, rfl, hb, rfl⟩
    · cases h

variable {pend : σ → Nat} {dirty : σ → Prop} {J : List (V → Prop) → (V → Prop) → σ → Prop} {P : Nat → Option (V → Prop)} {may : E → Prop} {G : σ → Prop}

/-- A task goes on in the state `y'`. -/
theorem Ok.run {o : Option (V → Prop)} {y' : σ} {ks : List Nat} {es : List E} (h1 : ks.length = pend y') (h2 : es ≠ [] → dirty y') (h4 : o = none → G y')
    (h3 : ∀ Q, o = some Q → es = [] ∧ ∃ Qs, Kids P ks Qs ∧ J Qs Q y') : Ok body pend dirty J P G o .run (.here y') ks es :=
  ⟨⟨h1, h2⟩, trivial, h3, h4⟩

theorem Good.new {a : FJ (St σ) V E L} (h : Good body pend dirty J P G a) {f : Nat} {y y' : σ} {ks : List Nat} {es : List E} (hm : a.mode f = .run)
    (hs : a.st f = .here y) (hks : a.kids f = ks) (hes : a.threw f = es) (h1 : pend y' = pend y) (h2 : dirty y → dirty y')
    (h3 : ∀ Qs Q, J Qs Q y → J Qs Q y') (h4 : G y → G y') : Ok body pend dirty J P G (P f) .run (.here y') ks es := by
  have hf := h f
  rw [hm, hs, hks, hes] at hf
  refine Ok.run (hf.len.1.trans h1.symm) (fun e => h2 (hf.len.2 e)) (fun e => h4 (hf.lax e)) fun Q e => ?_
  obtain ⟨e1, Qs, e2, e3⟩ := hf.typ Q e
  exact ⟨e1, Qs, e2, h3 Qs Q e3⟩

/-- A task goes on in the state `y'` with nothing else changed. -/
theorem Good.on {a a' : FJ (St σ) V E L} (h : Good body pend dirty J P G a) {f : Nat} {y y' : σ} (hm : a.mode f = .run)
    (hs : a.st f = .here y) (h1 : pend y' = pend y) (h2 : dirty y → dirty y') (h3 : ∀ Qs Q, J Qs Q y → J Qs Q y') (h4 : G y → G y')
    (e1 : a'.mode = set a.mode f .run) (e2 : a'.st = set a.st f (.here y')) (e3 : a'.kids = a.kids) (e4 : a'.threw = a.threw) :
    Good body pend dirty J P G a' := by
  refine h.only f (fun g hg => by rw [e1, set_ne _ _ hg]) (fun g hg => by rw [e2, set_ne _ _ hg]) (fun g _ => by rw [e3]) (fun g _ => by rw [e4]) ?_
  rw [e1, e2, e3, e4, set_same, set_same]
  exact h.new hm hs rfl rfl h1 h2 h3 h4

theorem Good.step [DecidableEq L] (hd : Disc body pend dirty) (hJ : Calm body may J) (hG : Free body may J G) {a a' : FJ (St σ) V E L} (h : Good body pend dirty J P G a) {f : Nat}
    (st : FJ.Step (seen body) may f a a') : ∃ P', Good body pend dirty J P' G a' := by
  have hf := h f
  cases st with
  | ret v hm hb =>
    obtain ⟨y, hs, hb'⟩ := seen_ret hb
    refine ⟨P, h.only f (fun g hg => set_ne _ _ hg) (fun _ _ => rfl) (fun _ _ => rfl) (fun _ _ => rfl) ?_⟩
    dsimp only
    rw [set_same]
    rw [hm, hs] at hf
    refine ⟨trivial, trivial, fun Q e => ⟨v, rfl, ?_⟩, fun _ => trivial⟩
    obtain ⟨-, Qs, -, h3⟩ := hf.typ Q e
    exact hJ.ret h3 hb'
  | throw e hm hb =>
    obtain ⟨y, hs, hb'⟩ := seen_throw hb
    refine ⟨P, h.only f (fun g hg => set_ne _ _ hg) (fun _ _ => rfl) (fun _ _ => rfl) (fun _ _ => rfl) ?_⟩
    dsimp only
    rw [set_same]
    rw [hm, hs] at hf
    refine ⟨trivial, trivial, fun Q e => ?_, fun _ => trivial⟩
    obtain ⟨-, Qs, -, h3⟩ := hf.typ Q e
    exact absurd hb' (hJ.throw h3)
  | fork n c k x hm hb hn =>
    obtain ⟨y, c0, hs, rfl, hb'⟩ := seen_fork hb
    have hne : f ≠ n := by rintro rfl; rw [hn] at hm; cases hm
    rw [hm, hs] at hf
    have hP := h.fresh hn
    have hpc : pend c0 = 0 := by
      rcases hb' with ⟨k0, x0, hb', -, -⟩ | ⟨k0, x0, hb', -, -⟩
      · exact ((hd.plain y _ hb').fork _ _ _ rfl).1
      · exact (hd.out.before y _ _ _ hb').2.2
    -- what is expected of the child
    have hQ : ∃ o : Option (V → Prop), (∀ Q, o = some Q → J [] Q c0) ∧ (o = none → G c0) ∧
        Ok body pend dirty J (set P n o) G (P f) (.forked n) (.here y) (a.kids f ++ [n]) (a.threw f) := by
      rcases hb' with ⟨k0, x0, hb', -, -⟩ | ⟨k0, x0, hb', -, -⟩
      · cases ho : P f with
        | none =>
          have hg := hG.fork (hf.lax ho) hb'
          refine ⟨none, (fun _ e => nomatch e), (fun _ => hg.1), ⟨?_, hf.len.2⟩, ?_, (fun _ e => nomatch e), fun _ => hf.lax ho⟩
          · simp only [List.length_append, List.length_cons, List.length_nil]; rw [hf.len.1]
          · intro c1 k1 x1 hb1; rw [hb'] at hb1; cases hb1
        | some Q =>
          obtain ⟨h1, Qs, h2, h3⟩ := hf.typ Q ho
          obtain ⟨⟨Q', h4, h5⟩, -⟩ := hJ.fork h3 hb'
          refine ⟨some Q', (fun Q1 e => by cases e; exact h4), (fun e => nomatch e), ⟨?_, hf.len.2⟩, ?_, ?_, fun e => nomatch e⟩
          · simp only [List.length_append, List.length_cons, List.length_nil]; rw [hf.len.1]
          · intro c1 k1 x1 hb1; rw [hb'] at hb1; cases hb1
          · intro Q1 e; cases e
            refine ⟨h1, fun c1 k1 x1 hb1 => ?_, fun c1 k1 x1 hb1 => ?_⟩
            · rw [hb'] at hb1; cases hb1
              exact ⟨_, (h2.mono (mono_add hP)).snoc (set_same _ _ _), h5⟩
            · rw [hb'] at hb1; cases hb1
      · obtain ⟨g1, g2, g3⟩ := hd.out.before y _ _ _ hb'
        have hks : a.kids f = [] := List.length_eq_zero_iff.1 (hf.len.1.trans g1)
        have hes : a.threw f = [] := Classical.byContradiction fun e => g2 (hf.len.2 e)
        cases ho : P f with
        | none =>
          obtain ⟨⟨Q', h4⟩, -, -⟩ := hG.out (hf.lax ho) hb'
          refine ⟨some Q', (fun Q1 e => by cases e; exact h4), (fun e => nomatch e), ⟨?_, hf.len.2⟩, ?_, (fun _ e => nomatch e), fun _ => hf.lax ho⟩
          · simp only [List.length_append, List.length_cons, List.length_nil]; rw [hf.len.1]
          · intro c1 k1 x1 hb1; exact ⟨hes, by rw [hks]; rfl, Q', set_same _ _ _⟩
        | some Q =>
          obtain ⟨h1, Qs, h2, h3⟩ := hf.typ Q ho
          rw [hks] at h2; cases h2
          obtain ⟨⟨Q', h4, h5, h6⟩, -⟩ := hJ.out h3 hb'
          refine ⟨some Q', (fun Q1 e => by cases e; exact h4), (fun e => nomatch e), ⟨?_, hf.len.2⟩, ?_, ?_, fun e => nomatch e⟩
          · simp only [List.length_append, List.length_cons, List.length_nil]; rw [hf.len.1]
          · intro c1 k1 x1 hb1; exact ⟨hes, by rw [hks]; rfl, Q', set_same _ _ _⟩
          · intro Q1 e; cases e
            refine ⟨h1, fun c1 k1 x1 hb1 => ?_, fun c1 k1 x1 hb1 => ?_⟩
            · rw [hb'] at hb1; cases hb1
            · rw [hb'] at hb1; cases hb1
              exact ⟨Q', by rw [hks]; rfl, set_same _ _ _, h5, h6⟩
    obtain ⟨o, hc, hcg, hok⟩ := hQ
    refine ⟨set P n o, h.add f n o hn (fun g h1 h2 => ?_) (fun g h1 h2 => ?_) (fun g h1 h2 => ?_) (fun g h1 h2 => ?_) (fun _ => ?_) ?_⟩
    · simp only [FJ.new, set_ne _ _ h1, set_ne _ _ h2]
    · simp only [FJ.new, set_ne _ _ h2]
    · simp only [FJ.new, set_ne _ _ h1, set_ne _ _ h2]
    · simp only [FJ.new, set_ne _ _ h2]
    · simp only [FJ.new, set_same, set_ne _ _ hne, hs]; exact hok
    · simp only [FJ.new, set_same, set_ne _ _ (Ne.symm hne)]
      exact Ok.run hpc.symm (fun e => absurd rfl e) hcg fun Q e => ⟨rfl, [], .nil, hc Q e⟩
  | resume n c k x b hm hb hbn =>
    obtain ⟨y, c0, hs, -, hb'⟩ := seen_fork hb
    rw [hm, hs] at hf
    refine ⟨P, h.only f (fun g hg => set_ne _ _ hg) (fun g hg => set_ne _ _ hg) (fun _ _ => rfl) (fun _ _ => rfl) ?_⟩
    simp only [FJ.on, set_same]
    rcases hb' with ⟨k0, x0, hb', rfl, -⟩ | ⟨k0, x0, hb', rfl, -⟩
    · have hd' := ((hd.plain y _ hb').fork _ _ _ rfl).2.1 b
      refine Ok.run (hf.len.1.trans hd'.1.symm) (fun e => hd'.2 (hf.len.2 e)) (fun e => (hG.fork (hf.lax e) hb').2.1 b) fun Q e => ?_
      obtain ⟨h1, h2, -⟩ := hf.typ Q e
      obtain ⟨Qs, h3, h4⟩ := h2 _ _ _ hb'
      exact ⟨h1, Qs, h3, h4 b⟩
    · obtain ⟨g1, g2, Q', g3⟩ := hf.hot _ _ _ hb'
      cases b
      · refine Ok.run ?_ (fun e => absurd g1 e) (fun e => (hG.out (hf.lax e) hb').2.1 _) fun Q e => ?_
        · rw [g2]; exact (hd.out.no y _ _ _ hb').symm
        · obtain ⟨h1, -, h2⟩ := hf.typ Q e
          obtain ⟨Q1, h3, h4, h5, h6⟩ := h2 _ _ _ hb'
          rw [h3]
          exact ⟨h1, [Q1], .cons h4 .nil, h6⟩
      · refine ⟨⟨by rw [g2]; rfl, fun e => absurd g1 e⟩, ⟨g1, ⟨n, Q', g2, g3⟩, _, _, _, hb'⟩, fun Q e => ?_, fun e => hf.lax e⟩
        obtain ⟨h1, -, h2⟩ := hf.typ Q e
        obtain ⟨Q1, h3, h4, h5, h6⟩ := h2 _ _ _ hb'
        exact ⟨h1, n, Q1, _, _, _, h3, h4, hb', h5⟩
  | call n c k x hm hb hn =>
    obtain ⟨y, c0, k0, x0, hs, hb', rfl, -, -⟩ := seen_call hb
    have hne : f ≠ n := by rintro rfl; rw [hn] at hm; cases hm
    rw [hm, hs] at hf
    have hP := h.fresh hn
    have hpc : pend c0 = 0 := ((hd.plain y _ hb').call _ _ _ rfl).1
    have hQ : ∃ o : Option (V → Prop), (∀ Q, o = some Q → J [] Q c0) ∧ (o = none → G c0) ∧
        Ok body pend dirty J (set P n o) G (P f) (.called n) (.here y) (a.kids f) (a.threw f) := by
      cases ho : P f with
      | none => exact ⟨none, (fun _ e => nomatch e), (fun _ => (hG.call (hf.lax ho) hb').1), hf.len, trivial, (fun _ e => nomatch e), fun _ => hf.lax ho⟩
      | some Q =>
        obtain ⟨h1, Qs, h2, h3⟩ := hf.typ Q ho
        obtain ⟨⟨Q', h4, h5⟩, -⟩ := hJ.call h3 hb'
        refine ⟨some Q', (fun Q1 e => by cases e; exact h4), (fun e => nomatch e), hf.len, trivial, ?_, fun e => nomatch e⟩
        intro Q1 e; cases e
        refine ⟨h1, fun c1 k1 x1 hb1 => ?_⟩
        rw [hb'] at hb1; cases hb1
        exact ⟨Q', Qs, set_same _ _ _, h2.mono (mono_add hP), h5⟩
    obtain ⟨o, hc, hcg, hok⟩ := hQ
    refine ⟨set P n o, h.add f n o hn (fun g h1 h2 => ?_) (fun g h1 h2 => ?_) (fun g h1 h2 => ?_) (fun g h1 h2 => ?_) (fun _ => ?_) ?_⟩
    · simp only [FJ.new, set_ne _ _ h1, set_ne _ _ h2]
    · simp only [FJ.new, set_ne _ _ h2]
    · simp only [FJ.new, set_ne _ _ h2]
    · simp only [FJ.new, set_ne _ _ h2]
    · simp only [FJ.new, set_same, set_ne _ _ hne, hs]; exact hok
    · simp only [FJ.new, set_same, set_ne _ _ (Ne.symm hne)]
      exact Ok.run hpc.symm (fun e => absurd rfl e) hcg fun Q e => ⟨rfl, [], .nil, hc Q e⟩
  | back n r c k x hm hn hb =>
    obtain ⟨y, c0, k0, x0, hs, hb', -, rfl, -⟩ := seen_call hb
    rw [hm, hs] at hf
    refine ⟨P, h.only f (fun g hg => set_ne _ _ hg) (fun g hg => set_ne _ _ hg) (fun _ _ => rfl) (fun g hg => set_ne _ _ hg) ?_⟩
    simp only [FJ.on, set_same]
    have hd' := ((hd.plain y _ hb').call _ _ _ rfl).2.1 r.toOption
    refine Ok.run (hf.len.1.trans hd'.1.symm) (fun e => hd'.2 ?_) (fun e => (hG.call (hf.lax e) hb').2.1 _) fun Q e => ?_
    · cases r with
      | error e' => exact Or.inl rfl
      | ok v => exact Or.inr (hf.len.2 e)
    · obtain ⟨h1, h2⟩ := hf.typ Q e
      obtain ⟨Q', Qs, h3, h4, h5⟩ := h2 _ _ _ hb'
      have := (h n).typ Q' h3
      rw [hn] at this
      obtain ⟨v, rfl, hv⟩ := this
      exact ⟨h1, Qs, h4, h5 v hv⟩
  | join rs k x hm hb he h0 ht =>
    refine ⟨P, h.only f (fun g hg => set_ne _ _ hg) (fun g hg => set_ne _ _ hg) (fun g hg => set_ne _ _ hg) (fun g hg => rfl) ?_⟩
    simp only [FJ.on, set_same]
    rw [hm] at hf
    rw [ht] at hf ⊢
    rcases seen_join hb with ⟨y, k0, x0, hs, hb', rfl, -⟩ | ⟨y, c0, k0, x0, hs, hb', rfl, -⟩ | ⟨y, a', hs, hb'⟩ | hs <;> rw [hs] at hf
    · refine Ok.run (((hd.plain y _ hb').join _ _ rfl).1 _).symm (fun e => absurd rfl e) (fun e => (hG.join (hf.lax e) hb').1 _) fun Q e => ?_
      obtain ⟨-, Qs, h2, h3⟩ := hf.typ Q e
      exact ⟨rfl, [], .nil, hJ.join h3 hb' _ (ended_match h h2 he).2⟩
    · obtain ⟨-, ⟨n, Q', g1, g2⟩, -⟩ := hf.hot
      have hk : Kids P (a.kids f) [Q'] := by rw [g1]; exact .cons g2 .nil
      have hmt := (ended_match h hk he).2
      generalize oks rs = vs at hmt
      cases hmt with
      | cons hq hr =>
        cases hr
        refine Ok.run (hd.out.yes y _ _ _ _ hb').symm (fun e => absurd rfl e) (fun e => (hG.out (hf.lax e) hb').2.1 _) fun Q e => ?_
        obtain ⟨-, n1, Q1, c1, k1, x1, h2, h3, h4, h5⟩ := hf.typ Q e
        rw [hb'] at h4; cases h4
        rw [g1] at h2; cases h2
        rw [g2] at h3; cases h3
        exact ⟨rfl, [], .nil, h5 _ hq⟩
    · obtain ⟨-, -, c, k, x, e⟩ := hf.hot; rw [hb'] at e; cases e
    · exact hf.hot.elim
  | rethrow rs e k x hm hb he hmem =>
    rw [hm] at hf
    rcases seen_join hb with ⟨y, k0, x0, hs, hb', -, rfl⟩ | ⟨y, c0, k0, x0, hs, hb', -, rfl⟩ | ⟨y, a', hs, hb'⟩ | hs <;> rw [hs] at hf
    · refine ⟨P, h.only f (fun g hg => set_ne _ _ hg) (fun g hg => set_ne _ _ hg) (fun g hg => set_ne _ _ hg) (fun g hg => set_ne _ _ hg) ?_⟩
      simp only [FJ.on, set_same]
      refine Ok.run (((hd.plain y _ hb').join _ _ rfl).2 _ _).symm (fun e => absurd rfl e) (fun e => (hG.join (hf.lax e) hb').2 _ _) fun Q e => ?_
      obtain ⟨h1, Qs, h2, h3⟩ := hf.typ Q e
      rw [h1, (ended_match h h2 he).1] at hmem
      cases hmem
    · exfalso
      obtain ⟨h1, ⟨n, Q', g1, g2⟩, -⟩ := hf.hot
      have hk : Kids P (a.kids f) [Q'] := by rw [g1]; exact .cons g2 .nil
      rw [h1, (ended_match h hk he).1] at hmem
      cases hmem
    · obtain ⟨-, -, c, k, x, e⟩ := hf.hot; rw [hb'] at e; cases e
    · exact hf.hot.elim
  | switch d k x hm hb =>
    obtain ⟨y, k0, x0, hs, hb', rfl, rfl⟩ := seen_switch hb
    have hd' := (hd.plain y _ hb').switch _ _ _ rfl
    exact ⟨P, h.on hm hs hd'.1 hd'.2.1 (fun Qs Q hj => (hJ.switch hj hb').1) (fun g => (hG.switch g hb').1) rfl rfl rfl rfl⟩
  | forkFails e c k x hm hb he =>
    obtain ⟨y, c0, hs, -, hb'⟩ := seen_fork hb
    rcases hb' with ⟨k0, x0, hb', -, rfl⟩ | ⟨k0, x0, hb', -, rfl⟩
    · have hd' := ((hd.plain y _ hb').fork _ _ _ rfl).2.2 e
      exact ⟨P, h.on hm hs hd'.1 hd'.2 (fun Qs Q hj => (hJ.fork hj hb').2 e he) (fun g => (hG.fork g hb').2.2 e he) rfl rfl rfl rfl⟩
    · rw [hm, hs] at hf
      obtain ⟨g1, g2, g3⟩ := hd.out.before y _ _ _ hb'
      have hks : a.kids f = [] := List.length_eq_zero_iff.1 (hf.len.1.trans g1)
      refine ⟨P, h.only f (fun g hg => set_ne _ _ hg) (fun g hg => set_ne _ _ hg) (fun _ _ => rfl) (fun _ _ => rfl) ?_⟩
      simp only [FJ.on, set_same]
      rw [hks] at hf ⊢
      refine Ok.run (hd.out.fails y _ _ _ e hb').symm (fun e => absurd (hf.len.2 e) g2) (fun e' => (hG.out (hf.lax e') hb').2.2 e he) fun Q e' => ?_
      obtain ⟨h1, Qs, h2, h3⟩ := hf.typ Q e'
      cases h2
      exact ⟨h1, [], .nil, (hJ.out h3 hb').2 e he⟩
  | callFails e c k x hm hb he =>
    obtain ⟨y, c0, k0, x0, hs, hb', -, -, rfl⟩ := seen_call hb
    have hd' := ((hd.plain y _ hb').call _ _ _ rfl).2.2 e
    exact ⟨P, h.on hm hs hd'.1 hd'.2 (fun Qs Q hj => (hJ.call hj hb').2 e he) (fun g => (hG.call g hb').2.2 e he) rfl rfl rfl rfl⟩
  | switchFails e d k x hm hb he =>
    obtain ⟨y, k0, x0, hs, hb', rfl, rfl⟩ := seen_switch hb
    have hd' := (hd.plain y _ hb').switch _ _ _ rfl
    exact ⟨P, h.on hm hs (hd'.2.2 e).1 (hd'.2.2 e).2 (fun Qs Q hj => (hJ.switch hj hb').2 e he) (fun g => (hG.switch g hb').2 e he) rfl rfl rfl rfl⟩
  | load l k hm hb =>
    obtain ⟨y, k0, hs, hb', rfl⟩ := seen_load hb
    have hd' := (hd.plain y _ hb').load _ _ rfl (a.m l)
    exact ⟨P, h.on hm hs hd'.1 hd'.2 (fun Qs Q hj => hJ.load hj hb' _) (fun g => hG.load g hb' _) rfl rfl rfl rfl⟩
  | store l d k hm hb =>
    obtain ⟨y, k0, hs, hb', rfl⟩ := seen_store hb
    have hd' := (hd.plain y _ hb').store _ _ _ rfl
    exact ⟨P, h.on hm hs hd'.1 hd'.2 (fun Qs Q hj => hJ.store hj hb') (fun g => hG.store g hb') rfl rfl rfl rfl⟩

/-- In every execution. -/
theorem good [DecidableEq L] (hd : Disc body pend dirty) {ok : (σ → Prop) → σ → Prop} (hJ : Safe body may ok J) {m : L → E} {a : FJ (St σ) V E L}
    (h : FJ.Reach (seen body) may (okS pend ok) m a) : ∃ P G, Good body pend dirty J P G a := by
  obtain ⟨G, hG, hr⟩ := hJ.roots
  refine (fun ⟨P, h⟩ => ⟨P, G, h⟩ : (∃ P, Good body pend dirty J P G a) → _) ?_
  induction h with
  | start y => exact ⟨fun _ => none, fun g => ⟨trivial, by unfold Hot FJ.start; trivial, (fun _ e => nomatch e), fun _ => trivial⟩⟩
  | @submit a n c _ hok hn ih =>
    obtain ⟨P, h⟩ := ih
    obtain ⟨y, rfl, hp, hok⟩ := hok
    have ho : ∃ o : Option (V → Prop), (∀ Q, o = some Q → J [] Q y) ∧ (o = none → G y) := by
      rcases hr _ _ hok.1 with h | ⟨Q, h⟩
      · exact ⟨none, (fun _ e => nomatch e), fun _ => h⟩
      · exact ⟨some Q, (fun Q' e => by cases e; exact h), fun e => nomatch e⟩
    obtain ⟨o, ho1, ho2⟩ := ho
    refine ⟨set P n o, h.add n n o hn (fun g _ h2 => ?_) (fun g _ h2 => ?_) (fun g _ h2 => ?_) (fun g _ h2 => ?_) (fun e => absurd rfl e) ?_⟩
    · simp only [FJ.submit, FJ.new, set_ne _ _ h2]
    · simp only [FJ.submit, FJ.new, set_ne _ _ h2]
    · simp only [FJ.submit, FJ.new, set_ne _ _ h2]
    · simp only [FJ.submit, FJ.new, set_ne _ _ h2]
    · simp only [FJ.submit, FJ.new, set_same]
      exact Ok.run hp.symm (fun e => absurd rfl e) ho2 fun Q e => ⟨rfl, [], .nil, ho1 Q e⟩
  | step f _ st ih =>
    obtain ⟨P, h⟩ := ih
    exact h.step hd hJ.calm hG st

/-- No task is at `bad`, -/
theorem not_bad [DecidableEq L] (hd : Disc body pend dirty) {ok : (σ → Prop) → σ → Prop} (hJ : Safe body may ok J) {m : L → E} {a : FJ (St σ) V E L}
    (h : FJ.Reach (seen body) may (okS pend ok) m a) {f : Nat} (hm : a.mode f = .run) : a.st f ≠ .bad := by
  obtain ⟨P, G, hg⟩ := good hd hJ h
  intro e
  have := (hg f).hot
  rw [hm, e] at this
  exact this

end Verif.Sync
