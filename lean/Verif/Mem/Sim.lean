import Verif.Mem.Rel2

/-! Every step of the runtime is no, one or two steps of the fork/join machine. -/
namespace Verif.Mem
open Verif.Runtime (State Res Fr Pc Loc Link Ev Why upd maxU16 U16 newFrame reset destroy release joinLoad joinSub finPop finDec finLose
  selfSteal stole switchRel steal take doFork doCall report upd_apply upd_same upd_ne Few status forked Legal Alive)
open Verif.Exn (XS Choice goOn errs oks held allHeld passJoin reach_rel disc_tgt alive_lt wake plain)

variable {σ V E L : Type} [Inhabited E] [DecidableEq L]

def XR (x : XS σ V E) (a : FJ σ V E L) : Prop :=
  Rel x.c.nf x.c.link (fun f => (x.c.fr f).st) (fun f => (x.c.fr f).slots) x.c.log x.exc a

theorem XR.congr {x x' : XS σ V E} {a : FJ σ V E L} (h : XR x a) (h1 : x'.c.nf = x.c.nf) (h2 : x'.c.link = x.c.link)
    (h3 : ∀ f, (x'.c.fr f).st = (x.c.fr f).st) (h4 : ∀ f, (x'.c.fr f).slots = (x.c.fr f).slots) (h5 : x'.c.log = x.c.log) (h6 : x'.exc = x.exc) : XR x' a := by
  unfold XR at h ⊢
  rw [h1, h2, h5, h6, funext h3, funext h4]
  exact h

theorem XR.to {x : XS σ V E} {a : FJ σ V E L} {nf : Nat} {link : Nat → Link} {st : Nat → σ} {slots : Nat → List (Option (Except E V))}
    {log : List (Ev σ (Except E V))} {exc : Nat → Option E} (h : Rel nf link st slots log exc a) (h1 : x.c.nf = nf) (h2 : ∀ f, x.c.link f = link f)
    (h3 : ∀ f, (x.c.fr f).st = st f) (h4 : ∀ f, (x.c.fr f).slots = slots f) (h5 : x.c.log = log) (h6 : ∀ f, x.exc f = exc f) : XR x a := by
  unfold XR
  rw [h1, h5, funext h2, funext h3, funext h4, funext h6]
  exact h

theorem disc_ctl {body : σ → Act σ V E L} {pend : σ → Nat} {dirty : σ → Prop} (hd : Disc body pend dirty) : Exn.Disc (ctl body) pend dirty where
  ret s v h := by unfold ctl at h; split at h <;> cases h; exact hd.ret s v ‹_›
  throw s e h := by unfold ctl at h; split at h <;> cases h; exact hd.throw s e ‹_›
  fork s c k x h := by unfold ctl at h; split at h <;> cases h; exact hd.fork s c k x ‹_›
  call s c k x h := by unfold ctl at h; split at h <;> cases h; exact hd.call s c k x ‹_›
  join s k x h := by unfold ctl at h; split at h <;> cases h; exact hd.join s k x ‹_›
  switch s d k x h := by
    unfold ctl at h
    split at h <;> cases h
    · exact hd.switch s d k x ‹_›
    · rename_i l hb; exact ⟨(hd.load s l x hb default).1, (hd.load s l x hb default).2, fun e => hd.load s l x hb e⟩
    · rename_i l d hb; exact ⟨(hd.store s l d k hb).1, (hd.store s l d k hb).2, fun e => hd.store s l d k hb⟩

theorem ctl_ret {body : σ → Act σ V E L} {y : σ} {v : V} (h : ctl body y = .ret v) : body y = .ret v := by
  unfold ctl at h; split at h <;> cases h; assumption
theorem ctl_throw {body : σ → Act σ V E L} {y : σ} {e : E} (h : ctl body y = .throw e) : body y = .throw e := by
  unfold ctl at h; split at h <;> cases h; assumption
theorem ctl_fork {body : σ → Act σ V E L} {y c : σ} {k x} (h : ctl body y = .fork c k x) : body y = .fork c k x := by
  unfold ctl at h; split at h <;> cases h; assumption
theorem ctl_call {body : σ → Act σ V E L} {y c : σ} {k x} (h : ctl body y = .call c k x) : body y = .call c k x := by
  unfold ctl at h; split at h <;> cases h; assumption
theorem ctl_join {body : σ → Act σ V E L} {y : σ} {k x} (h : ctl body y = .join k x) : body y = .join k x := by
  unfold ctl at h; split at h <;> cases h; assumption

/-- Not at an access to memory. -/
def NoAcc (body : σ → Act σ V E L) (y : σ) : Prop := (∀ l k, body y ≠ .load l k) ∧ ∀ l d k, body y ≠ .store l d k

theorem ctl_switch {body : σ → Act σ V E L} {y : σ} (hn : NoAcc body y) {d : Nat} {k : σ} {x} (h : ctl body y = .switch d k x) : body y = .switch d k x := by
  unfold ctl at h; split at h <;> cases h
  · assumption
  · exact absurd ‹_› (hn.1 _ _)
  · exact absurd ‹_› (hn.2 _ _ _)

theorem done_mode {l : List (Ev σ (Except E V))} (hl : Legal l) {f : Nat} {r : Except E V} (h : Ev.done f r ∈ l) : modeOf f l = .ended r := by
  induction l with
  | nil => cases h
  | cons e l ih =>
    rcases List.mem_cons.1 h with rfl | h
    · simp [modeOf]
    · have hl' := Verif.Runtime.legal_tail (l2 := [e]) hl
      have h1 := ih hl' h
      have h2 := ended_iff.1 ⟨r, h1⟩
      cases e with
      | submit g c w =>
        have : g ≠ f := by rintro rfl; have := hl.1; rw [h2] at this; cases this
        simp only [modeOf, if_neg this]; exact h1
      | resume g w =>
        have : g ≠ f := by rintro rfl; have := hl.2.1; unfold Runtime.MayResume at this; rw [h2] at this; exact this
        simp only [modeOf, if_neg this]; exact h1
      | suspend g y =>
        have : g ≠ f := by rintro rfl; obtain ⟨w, hw⟩ := hl.1; rw [h2] at hw; cases hw
        cases y <;> simp only [modeOf, if_neg this] <;> exact h1
      | done g r' =>
        have : g ≠ f := by rintro rfl; obtain ⟨w, hw⟩ := hl.1; rw [h2] at hw; cases hw
        simp only [modeOf, if_neg this]; exact h1

/-- What is known about the tasks workers deal with. -/
structure Facts (x : XS σ V E) : Prop where
  run : ∀ w f, x.c.pc w = .run f → f < x.c.nf ∧ modeOf f x.c.log = .run
  pop : ∀ w p k c q, x.c.pc w = .finPop p k → x.c.q w = (p, c) :: q → p < x.c.nf ∧ status p x.c.log = .waiting (.fork k)
  sto : ∀ w p, x.c.pc w = .stole p → p < x.c.nf ∧ ∃ c, status p x.c.log = .waiting (.fork c)
  win : ∀ w f, (x.c.pc w = .joinTake f ∨ ∃ b, x.c.pc w = .finWin f b) → f < x.c.nf ∧ status f x.c.log = .waiting .join
  ib : ∀ w f, f ∈ x.c.inbox w → modeOf f x.c.log = .run
  dn : ∀ f, status f x.c.log = .done → f < x.c.nf

theorem facts {body : σ → Exn.Act σ V E} {pend : σ → Nat} {dirty : σ → Prop} {may : E → Prop} (hd : Exn.Disc body pend dirty) {x : XS σ V E}
    (h : Exn.Reach body pend may x) : Facts x := by
  obtain ⟨es, r, hr, hrel⟩ := reach_rel hd h fun _ => .nil
  have hi := Verif.Runtime.reach_inv (disc_tgt hd) hr
  have hg := hi.log
  have hs : ∀ f, status f x.c.log = status f r.log := fun f => (hrel.base.log.status f).symm
  have hlt : ∀ f, Alive (r.loc f) → f < x.c.nf := fun f ha => alive_lt hi hrel (by rw [← hrel.base.loc]; exact ha)
  refine ⟨?_, ?_, ?_, ?_, ?_, ?_⟩
  · intro w f hp
    have hp' : r.pc w = .run f := by rw [hrel.base.pc]; exact hp
    refine ⟨hlt f ?_, ?_⟩
    · rw [(hi.loc.run w f).2 (Or.inl hp')]; trivial
    · have := hg.rn w f hp'
      rw [← hs] at this
      exact mode_of_status this
  · intro w p k c q hp hq
    have hp' : r.pc w = .finPop p k := by rw [hrel.base.pc]; exact hp
    have hq' : r.q w = (p, c) :: q := by rw [hrel.base.q]; exact hq
    have hle : r.loc p = .queued w c := (hi.loc.queue w p c).2 (by rw [hq']; exact List.mem_cons_self ..)
    have hek : c = k := hi.q.fp w p k hp' (p, c) (by rw [hq']; rfl)
    refine ⟨hlt p (by rw [hle]; trivial), ?_⟩
    rw [hs, hg.qd w p c hle, hek]
  · intro w p hp
    have hle := (hi.loc.sto w p).2 (by rw [hrel.base.pc]; exact hp)
    refine ⟨hlt p (by rw [hle]; trivial), ?_⟩
    have := hg.sb w p hle
    rw [hs]
    unfold Runtime.IsForkWait at this
    split at this
    · rename_i c e; exact ⟨c, e⟩
    · exact this.elim
  · intro w f hp
    have hle := (hi.loc.win w f).2 (by rw [hrel.base.pc]; exact hp)
    exact ⟨hlt f (by rw [hle]; trivial), by rw [hs]; exact hg.wi w f hle⟩
  · intro w f hf
    have hle := (hi.loc.inb w f).2 (by rw [hrel.base.inbox]; exact hf)
    have := hg.ib w f hle
    rw [← hs] at this
    have h2 := status_mode f x.c.log
    unfold Runtime.InboxOk at this
    split at this
    · rename_i e; rw [e] at h2; exact h2
    · rename_i e; rw [e] at h2; exact h2
    · exact this.elim
  · intro f hst
    rcases Nat.lt_or_ge f x.c.nf with h1 | h1
    · exact h1
    · have := hg.un f ((hi.loc.fresh f).2 (by rw [hrel.base.nf]; exact h1))
      rw [← hs, hst] at this; cases this

variable {body : σ → Act σ V E L} {pend : σ → Nat} {dirty : σ → Prop} {may : E → Prop} {ok : (σ → Prop) → σ → Prop} {m : L → E}

variable {P : Nat → Prop} {Q : Nat → Nat → Prop}

/-- No step; a step of a task `P`; the end of such a task `f` and the step of a task `p` that has called it, where `Q f p`. -/
inductive Path (body : σ → Act σ V E L) (may : E → Prop) (P : Nat → Prop) (Q : Nat → Nat → Prop) (a : FJ σ V E L) : FJ σ V E L → Prop
  | stay : Path body may P Q a a
  | one {f : Nat} {a' : FJ σ V E L} : P f → FJ.Step body may f a a' → Path body may P Q a a'
  | two {f p : Nat} {r : Except E V} {a' : FJ σ V E L} : P f → Q f p → a.mode p = .called f → FJ.Step body may f a { a with mode := set a.mode f (.ended r) } →
      FJ.Step body may p { a with mode := set a.mode f (.ended r) } a' → Path body may P Q a a'

/-- The fork/join machine can get to a state that corresponds to `x`, without an access to memory. -/
def To (body : σ → Act σ V E L) (may : E → Prop) (ok : (σ → Prop) → σ → Prop) (m : L → E) (P : Nat → Prop) (Q : Nat → Nat → Prop) (a : FJ σ V E L) (x : XS σ V E) : Prop :=
  ∃ a' : FJ σ V E L, FJ.Reach body may ok m a' ∧ XR x a' ∧ a'.m = a.m ∧ a'.hist = a.hist ∧ Path body may P Q a a'

theorem To.stay {a : FJ σ V E L} (ha : FJ.Reach body may ok m a) {x : XS σ V E} (h : XR x a) : To body may ok m P Q a x := ⟨a, ha, h, rfl, rfl, .stay⟩

theorem To.one {a a' : FJ σ V E L} (ha : FJ.Reach body may ok m a) {f : Nat} (hP : P f) (st : FJ.Step body may f a a') {x : XS σ V E} (h : XR x a')
    (hm : a'.m = a.m) (hh : a'.hist = a.hist) : To body may ok m P Q a x := ⟨a', .step f ha st, h, hm, hh, .one hP st⟩

/-- The state of a task after an update of its frame. -/
theorem upd_st (fr : Nat → Fr σ (Except E V)) (p : Nat) (g : Fr σ (Except E V)) (h : g.st = (fr p).st) (f : Nat) : ((upd fr p g) f).st = (fr f).st := by
  simp only [upd_apply]; split
  · rename_i e; rw [e]; exact h
  · rfl

theorem upd_slots (fr : Nat → Fr σ (Except E V)) (p : Nat) (g : Fr σ (Except E V)) (h : g.slots = (fr p).slots) (f : Nat) :
    ((upd fr p g) f).slots = (fr f).slots := by
  simp only [upd_apply]; split
  · rename_i e; rw [e]; exact h
  · rfl

/-- A task passes a join. -/
theorem sim_pass {x0 x' : XS σ V E} {a : FJ σ V E L} (ha : FJ.Reach body may ok m a) (hr : XR x0 a) {w f : Nat} (hP : P f) (hf : f < x0.c.nf)
    (hm : modeOf f x0.c.log = .run) (hk : ∀ c ∈ forked f x0.c.log, status c x0.c.log = .done) (hs : passJoin (ctl body) x0 w f = .ok x') :
    To body may ok m P Q a x' := by
  have hk' : ∀ c ∈ a.kids f, ∃ r, modeOf c x0.c.log = .ended r := by
    intro c hc
    obtain ⟨i, hi⟩ := List.getElem?_of_mem hc
    exact ended_iff.2 (hk c (hr.kid f hf i c hi).2.2.1)
  obtain ⟨rs, h1, h2, h3⟩ := hr.ended hf hk'
  have hst := hr.st f hf
  have hmode : a.mode f = .run := by rw [hr.mode f hf]; exact hm
  unfold passJoin at hs
  dsimp only at hs
  split at hs
  · have hfr : ∀ k : σ, ∀ g, ((upd x0.c.fr f { x0.c.fr f with st := k, slots := [], inits := [] }) g).st = if g = f then k else (x0.c.fr g).st := by
      intro k g; simp only [upd_apply]; split <;> rfl
    have hfs : ∀ k : σ, ∀ g, ((upd x0.c.fr f { x0.c.fr f with st := k, slots := [], inits := [] }) g).slots = if g = f then [] else (x0.c.fr g).slots := by
      intro k g; simp only [upd_apply]; split <;> rfl
    have hx := hr.exc f hf
    cases hb : ctl body (x0.c.fr f).st with
    | join k xx =>
      rw [hb] at hs
      cases hh : x0.exc f with
      | some e =>
        rw [hh] at hs hx
        cases hs
        have hmem : e ∈ errs rs ++ a.threw f := by
          rcases hx with h4 | h4
          · exact List.mem_append_right _ h4
          · exact List.mem_append_left _ ((h3 e).2 h4)
        have st := FJ.Step.rethrow (may := may) a rs e k xx hmode (by rw [hst]; exact ctl_join hb) h1 hmem
        rw [h2]
        refine To.one ha hP st (XR.to (hr.pass (w := w) hf hm hk' (xx e (rs.map Except.toOption)) none (set a.threw f []) rfl (by simp [set])
          (fun g hg => by simp [set, hg])) rfl (fun _ => rfl) (hfr _) (hfs _) rfl ?_) rfl rfl
        intro g; simp only [upd_apply]
      | none =>
        rw [hh] at hs hx
        have herr : errs rs = [] := by
          rw [List.eq_nil_iff_forall_not_mem]
          intro e he
          obtain ⟨c, h4, h5⟩ := (h3 e).1 he
          exact hx.2 c h4 e h5
        rw [h2, Exn.allHeld_ok rs herr] at hs
        cases hs
        have st := FJ.Step.join (may := may) a rs k xx hmode (by rw [hst]; exact ctl_join hb) h1 herr hx.1
        refine To.one ha hP st (XR.to (hr.pass (w := w) hf hm hk' (k (oks rs)) none a.threw rfl hx.1 (fun g hg => rfl)) rfl (fun _ => rfl) (hfr _) (hfs _) rfl ?_) rfl rfl
        intro g; split
        · rename_i e; rw [e]; exact hh
        · rfl
    | _ => simp [hb] at hs
  · cases hs

end Verif.Mem
