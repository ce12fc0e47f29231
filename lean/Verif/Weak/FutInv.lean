import Verif.Weak.FutModel
import Verif.Weak.Wf

/-! C53: invariant. -/
namespace Verif.Weak.Fut

def tph : TPc → Nat
  | .unborn => 0 | .body => 1 | .wrote => 2 | .released => 3 | .notified => 4 | .gone => 5 | .dead => 6

def uph : UPc → Nat
  | .prep => 0 | .submit => 1 | .idle => 2 | .acq _ => 3 | .getting => 4 | .drop => 5 | .done => 6

def sph : Status → Nat
  | .noWait => 0 | .ready => 1 | .retrieved => 2

def bn (b : Bool) : Nat := if b then 1 else 0

/-- What matters of a state: the lengths of the histories, the views of the threads, the views of the last messages of `sem`
and `refs` and of message 1 of `sub`, and the last values. -/
structure Ab where
  n : Loc → Nat
  cu : Loc → Nat
  ct : Loc → Nat
  sv : Loc → Nat
  rv : Loc → Nat
  bv : Loc → Nat
  vl : Loc → Int

def ab (s : St) : Ab :=
  { n := s.mem.len, cu := (s.tv .U).cur, ct := (s.tv .T).cur, sv := s.mem.view .sem (s.mem.last .sem)
    rv := s.mem.view .refs (s.mem.last .refs), bv := s.mem.view .sub 1, vl := s.val }

/-- The invariant, as a statement about numbers. -/
structure I (late : Bool) (a : Ab) (u t w st fr : Nat) (ub : Bool) : Prop where
  pos : ∀ l, 0 < a.n l
  hu : ∀ l, a.cu l < a.n l
  ht : ∀ l, a.ct l < a.n l
  hs : w = 0 → ∀ l, a.sv l < a.n l
  hr : ∀ l, a.rv l < a.n l
  hb : 2 ≤ u → ∀ l, a.bv l < a.n l
  hsub : a.n .sub = if 2 ≤ u then 2 else 1
  hsv : 2 ≤ u → a.vl .sub = 1
  born : 1 ≤ t → 2 ≤ u
  ucd : a.cu .cd + 1 = a.n .cd
  uua : a.cu .ua + 1 = a.n .ua
  ttr : a.ct .tr + 1 = a.n .tr
  tta : a.ct .ta + 1 = a.n .ta
  tef : a.ct .eff + 1 = a.n .eff
  scd : 2 ≤ u → w = 0 → a.bv .cd + 1 = a.n .cd
  sre : 2 ≤ u → t ≤ 1 → a.bv .res + 1 = a.n .res
  ure : u = 1 → a.cu .res + 1 = a.n .res
  tcd : 1 ≤ t → w = 0 → a.ct .cd + 1 = a.n .cd
  tre : 1 ≤ t → a.ct .res + 1 = a.n .res
  hsem : a.vl .sem = if 3 ≤ t ∧ w = 0 then 1 else 0
  hw : w ≤ 1
  w3 : w = 1 → 3 ≤ t
  svr : 3 ≤ t → w = 0 → a.sv .res + 1 = a.n .res
  sve : 3 ≤ t → w = 0 → a.sv .eff + 1 = a.n .eff
  svt : 3 ≤ t → w = 0 → late = false → a.sv .tr + 1 = a.n .tr
  wr : w = 1 → a.cu .res + 1 = a.n .res
  we : w = 1 → a.cu .eff + 1 = a.n .eff
  wtr : w = 1 → late = false → a.cu .tr + 1 = a.n .tr
  hst : st ≠ 0 → w = 1
  hacq : u = 3 → w = 0 ∧ st = 0
  hidle : u = 2 → st = 0 → w = 0
  hget : u = 4 → w = 1 ∧ st ≠ 0
  early : u ≤ 1 → w = 0 ∧ st = 0
  href : a.vl .refs = 2 - (if 5 ≤ t then 1 else 0) - (if u = 6 then 1 else 0)
  rta : 5 ≤ t → u ≠ 6 → a.rv .ta + 1 = a.n .ta
  rtr : 5 ≤ t → u ≠ 6 → a.rv .res + 1 = a.n .res
  rua : u = 6 → t < 5 → a.rv .ua + 1 = a.n .ua
  hfr : fr = if 5 ≤ t ∧ u = 6 then 1 else 0
  hub : late = false → ub = false

def Inv (late : Bool) (s : St) : Prop := I late (ab s) (uph s.upc) (tph s.tpc) (bn s.waited) (sph s.status) s.freed s.ub

theorem Inv.init (late : Bool) : Inv late .init := by
  constructor <;> simp [ab, St.init, Mem.init, TV.init, uph, tph, bn, sph, St.val, Mem.last]

/-! ### The primitives on what matters -/


def up (f : Loc → Nat) (l : Loc) (v : Nat) : Loc → Nat := fun x => if x = l then v else f x
def upv (f : Loc → Int) (l : Loc) (v : Int) : Loc → Int := fun x => if x = l then v else f x

/-- The view of thread `t`. -/
def Ab.c (a : Ab) : Th → Loc → Nat
  | .U => a.cu | .T => a.ct

def Ab.setc (a : Ab) : Th → (Loc → Nat) → Ab
  | .U, f => { a with cu := f } | .T, f => { a with ct := f }

/-- Append a message to `l`. -/
def Ab.app (a : Ab) (l : Loc) (v : Int) (w : Loc → Nat) : Ab :=
  { a with n := up a.n l (a.n l + 1), vl := upv a.vl l v
           sv := if l = .sem then w else a.sv, rv := if l = .refs then w else a.rv
           bv := if l = .sub ∧ a.n .sub = 1 then w else a.bv }

theorem ab_app {s : St} {l : Loc} {v : Int} {w : Loc → Nat} {t : Th} {tv : TV Loc} :
    ab { s with mem := s.mem.append l v w, tv := updT s.tv t tv } = ((ab s).app l v w).setc t tv.cur := by
  have e1 : (s.mem.append l v w).len = up s.mem.len l (s.mem.len l + 1) := rfl
  have e2 : ∀ x, (s.mem.append l v w).view x ((s.mem.append l v w).last x) = if l = x then w else s.mem.view x (s.mem.last x) := by
    intro x
    unfold Mem.last
    rw [Mem.view_append, Mem.len_append]
    by_cases h : x = l
    · subst h; simp
    · simp [h, Ne.symm h]
  have e3 : (fun x => (s.mem.append l v w).val x ((s.mem.append l v w).last x)) = upv s.val l v := by
    funext x
    unfold Mem.last upv St.val Mem.last
    rw [Mem.val_append, Mem.len_append]
    by_cases h : x = l
    · subst h; simp
    · simp [h]
  have e4 : (s.mem.append l v w).view .sub 1 = if l = .sub ∧ s.mem.len .sub = 1 then w else s.mem.view .sub 1 := by
    rw [Mem.view_append]
    by_cases h : l = .sub
    · subst h; by_cases h2 : s.mem.len .sub = 1
      · simp [h2]
      · simp [h2, Ne.symm h2]
    · simp [h, Ne.symm h]
  cases t <;>
  · simp only [ab, Ab.app, Ab.setc, e2, e4]
    rw [e1]
    simp only [Ab.mk.injEq]
    refine ⟨trivial, ?_, ?_, trivial, trivial, rfl, e3⟩ <;> simp [updT]

theorem ab_write (s : St) (t : Th) (l : Loc) (v : Int) (h : l ≠ .sem ∧ l ≠ .refs ∧ l ≠ .sub) :
    ab (s.write t l v) = { ab s with n := up (ab s).n l ((ab s).n l + 1), vl := upv (ab s).vl l v }.setc t (up ((ab s).c t) l ((ab s).n l)) := by
  unfold St.write Mem.store
  rw [ab_app]
  simp only [Ab.app, h.1, h.2.1, h.2.2, if_false, false_and]
  cases t <;> rfl

theorem ab_publish (s : St) (v : Int) (h : (ab s).n .sub = 1) :
    ab (s.publish .U .sub v) = { ab s with n := up (ab s).n .sub ((ab s).n .sub + 1), vl := upv (ab s).vl .sub v, cu := up (ab s).cu .sub ((ab s).n .sub), bv := up (ab s).cu .sub ((ab s).n .sub) } := by
  unfold St.publish Mem.store
  rw [ab_app]
  simp only [Ab.app, h, Ab.setc]
  simp only [reduceCtorEq, if_false, and_self, if_true, Ab.mk.injEq, true_and, and_true]
  change (s.mem.len .sub = 1) at h
  refine ⟨?_, ?_⟩ <;> (funext x; simp [TV.bump, TV.msg, up, h, ab])

theorem ab_rmwRel (s : St) (v : Int) :
    ab (s.rmwRel .T .sem v) = { ab s with
      n := up (ab s).n .sem ((ab s).n .sem + 1), vl := upv (ab s).vl .sem v, ct := up (ab s).ct .sem ((ab s).n .sem)
      sv := fun x => max (up (ab s).ct .sem ((ab s).n .sem) x) ((ab s).sv x) } := by
  unfold St.rmwRel Mem.rmwRel
  rw [ab_app]
  simp only [Ab.app, Ab.setc, reduceCtorEq, if_false, false_and, if_true, Ab.mk.injEq, true_and, and_true]
  refine ⟨?_, ?_⟩ <;> (funext x; simp [TV.rmwRel, TV.read, TV.bump, TV.msg, up, ab, Weak.join, single])
  by_cases h : x = .sem <;> simp [h]

theorem ab_rmwAcq (s : St) (v : Int) : ∃ w,
    ab (s.rmwAcq .U .sem v) = { ab s with
      n := up (ab s).n .sem ((ab s).n .sem + 1), vl := upv (ab s).vl .sem v
      cu := up (fun x => max ((ab s).cu x) ((ab s).sv x)) .sem ((ab s).n .sem), sv := w } := by
  refine ⟨Weak.join (((s.tv .U).read s.mem .sem (s.mem.last .sem) true).msg .sem (s.mem.len .sem) false) (s.mem.view .sem (s.mem.last .sem)), ?_⟩
  unfold St.rmwAcq
  rw [ab_app]
  simp only [Ab.app, Ab.setc, reduceCtorEq, if_false, false_and, if_true, Ab.mk.injEq, true_and, and_true]
  funext x
  by_cases h : x = .sem <;> simp [TV.read, TV.bump, up, ab, single, h]

theorem ab_rmw (s : St) (t : Th) (v : Int) :
    ab (s.rmw t .refs v) = { ab s with
      n := up (ab s).n .refs ((ab s).n .refs + 1), vl := upv (ab s).vl .refs v
      rv := up (fun x => max ((ab s).c t x) ((ab s).rv x)) .refs ((ab s).n .refs) }.setc t
        (up (fun x => max ((ab s).c t x) ((ab s).rv x)) .refs ((ab s).n .refs)) := by
  unfold St.rmw Mem.rmw
  rw [ab_app]
  have e1 : ((s.tv t).rmw s.mem .refs).cur = up (fun x => max ((ab s).c t x) ((ab s).rv x)) .refs ((ab s).n .refs) := by
    funext x
    cases t <;> by_cases h : x = .refs <;> simp [TV.rmw, TV.read, TV.bump, up, ab, single, h, Ab.c]
  have e2 : ((s.tv t).read s.mem .refs (s.mem.last .refs) true).msg .refs (s.mem.len .refs) true = up (fun x => max ((ab s).c t x) ((ab s).rv x)) .refs ((ab s).n .refs) := by
    funext x
    cases t <;> by_cases h : x = .refs <;> simp [TV.msg, TV.read, up, ab, single, h, Ab.c]
  rw [e1, e2]
  simp only [Ab.app, reduceCtorEq, if_false, false_and, if_true]

theorem ab_look (s : St) :
    ab (s.look .T .sub 1) = { ab s with ct := fun x => max (max ((ab s).ct x) (if x = .sub then 1 else 0)) ((ab s).bv x) } := by
  simp only [ab, St.look, updT, Ab.mk.injEq, true_and, and_true]
  refine ⟨?_, ?_, ?_⟩
  · simp
  · funext x; simp [TV.read, single]
  · funext x; rfl

/-! ### The steps on what matters -/

/-- Close the obligations of a step. -/
macro "fin" h:ident : tactic => `(tactic| (
  constructor
  case' pos => have h1 := ($h).pos
  case' hu => have h1 := ($h).hu; have h2 := ($h).hs; have h3 := ($h).hr; have h4 := ($h).w3; have h5 := ($h).hacq; have h6 := ($h).pos
  case' ht => have h1 := ($h).ht; have h2 := ($h).hr; have h3 := ($h).hb; have h4 := ($h).pos; have h5 := ($h).hsub
  case' hs => have h1 := ($h).hs; have h2 := ($h).ht; have h3 := ($h).pos
  case' hr => have h1 := ($h).hr; have h2 := ($h).hu; have h3 := ($h).ht; have h4 := ($h).pos
  case' hb => have h1 := ($h).hb; have h2 := ($h).hu; have h3 := ($h).early; have h4 := ($h).pos
  case' hsub => have h1 := ($h).hsub
  case' hsv => have h1 := ($h).hsv
  case' born => have h1 := ($h).born; have h2 := ($h).early
  case' ucd => have h1 := ($h).ucd; have h2 := ($h).hs; have h3 := ($h).hr; have h4 := ($h).hsub; have h5 := ($h).hacq
  case' uua => have h1 := ($h).uua; have h2 := ($h).hs; have h3 := ($h).hr; have h4 := ($h).hacq
  case' ttr => have h1 := ($h).ttr; have h2 := ($h).hb; have h3 := ($h).hr
  case' tta => have h1 := ($h).tta; have h2 := ($h).hb; have h3 := ($h).hr
  case' tef => have h1 := ($h).tef; have h2 := ($h).hb; have h3 := ($h).hr
  case' scd => have h1 := ($h).scd; have h2 := ($h).ucd; have h3 := ($h).early
  case' sre => have h1 := ($h).sre; have h2 := ($h).ure
  case' ure => have h1 := ($h).ure; have h2 := ($h).born
  case' tcd => have h1 := ($h).tcd; have h2 := ($h).scd; have h3 := ($h).hb; have h4 := ($h).hr; have h5 := ($h).ht; have h6 := ($h).early; have h7 := ($h).born
  case' tre => have h1 := ($h).tre; have h2 := ($h).sre; have h3 := ($h).hb; have h4 := ($h).hr; have h5 := ($h).ht; have h6 := ($h).born
  case' hsem => have h1 := ($h).hsem; have h2 := ($h).w3; have h3 := ($h).early; have h4 := ($h).hw
  case' hw => have h1 := ($h).hw
  case' w3 => have h1 := ($h).w3; have h2 := ($h).hsem
  case' svr => have h1 := ($h).svr; have h2 := ($h).tre; have h3 := ($h).hs; have h4 := ($h).w3; have h5 := ($h).ht; have h6 := ($h).born
  case' sve => have h1 := ($h).sve; have h2 := ($h).tef; have h3 := ($h).hs; have h4 := ($h).w3
  case' svt => have h1 := ($h).svt; have h2 := ($h).ttr; have h3 := ($h).hs; have h4 := ($h).w3
  case' wr => have h1 := ($h).wr; have h2 := ($h).svr; have h3 := ($h).hu; have h4 := ($h).hs; have h5 := ($h).hr; have h6 := ($h).hsem; have h7 := ($h).w3; have h8 := ($h).hacq; have h9 := ($h).early; have h10 := ($h).born
  case' we => have h1 := ($h).we; have h2 := ($h).sve; have h3 := ($h).hu; have h4 := ($h).hs; have h5 := ($h).hr; have h6 := ($h).hsem; have h7 := ($h).w3; have h8 := ($h).hacq; have h9 := ($h).early
  case' wtr => have h1 := ($h).wtr; have h2 := ($h).svt; have h3 := ($h).hu; have h4 := ($h).hs; have h5 := ($h).hr; have h6 := ($h).hsem; have h7 := ($h).w3; have h8 := ($h).hacq; have h9 := ($h).early
  case' hst => have h1 := ($h).hst; have h2 := ($h).hacq; have h3 := ($h).hget; have h4 := ($h).early
  case' hacq => have h1 := ($h).hacq; have h2 := ($h).hidle
  case' hidle => have h1 := ($h).hidle; have h2 := ($h).early; have h3 := ($h).hget
  case' hget => have h1 := ($h).hget; have h2 := ($h).hst
  case' early => have h1 := ($h).early
  case' href => have h1 := ($h).href
  case' rta => have h1 := ($h).rta; have h2 := ($h).tta; have h3 := ($h).hr; have h4 := ($h).born
  case' rtr => have h1 := ($h).rtr; have h2 := ($h).tre; have h3 := ($h).hr; have h4 := ($h).born
  case' rua => have h1 := ($h).rua; have h2 := ($h).uua; have h3 := ($h).hr
  case' hfr => have h1 := ($h).hfr; have h2 := ($h).href
  case' hub => have h1 := ($h).hub
  all_goals (clear $h)
  all_goals (try simp only [up, upv, Ab.setc, Ab.c, reduceCtorEq, if_false, if_true] at *)
  all_goals (first | assumption | grind)))

/-- A plain write of `t` to `l`. -/
def Ab.wr (a : Ab) (t : Th) (l : Loc) (v : Int) : Ab :=
  { a with n := up a.n l (a.n l + 1), vl := upv a.vl l v }.setc t (up (a.c t) l (a.n l))

variable {late ub : Bool} {a : Ab} {u t w st fr : Nat}

theorem I.touchU (h : I late a u t w st fr ub) (hd : u ≠ 6) : I late (a.wr .U .ua 0) u t w st fr ub := by
  unfold Ab.wr; fin h

theorem I.touchT (h : I late a u t w st fr ub) (hd : t < 5) : I late (a.wr .T .ta 0) u t w st fr ub := by
  unfold Ab.wr; fin h

theorem I.prep (h : I late a 0 t w st fr ub) (v : Int) : I late (a.wr .U .cd v) 0 t w st fr ub := by
  unfold Ab.wr; fin h

theorem I.construct (h : I late a 0 t w st fr ub) : I late (a.wr .U .res 0) 1 t w st fr ub := by
  unfold Ab.wr; fin h

theorem I.submit (h : I late a 1 t w st fr ub) : I late { a with n := up a.n .sub (a.n .sub + 1), vl := upv a.vl .sub 1, cu := up a.cu .sub (a.n .sub), bv := up a.cu .sub (a.n .sub) } 2 t w st fr ub := by
  fin h

theorem I.acq (h : I late a 2 t w 0 fr ub) : I late a 3 t w 0 fr ub := by
  fin h

theorem I.getting (h : I late a 2 t w st fr ub) (hs : st ≠ 0) : I late a 4 t w st fr ub := by
  fin h

theorem I.drop (h : I late a 2 t w st fr ub) : I late a 5 t w st fr ub := by
  fin h

theorem I.acquire (h : I late a 3 t w st fr ub) (hv : a.vl .sem = 1) {u' st' : Nat} {sv : Loc → Nat} (hk : (u' = 2 ∧ st' = 1) ∨ (u' = 4 ∧ st' = 1) ∨ (u' = 5 ∧ st' = 0)) :
    I late { a with n := up a.n .sem (a.n .sem + 1), vl := upv a.vl .sem 0, cu := up (fun x => max (a.cu x) (a.sv x)) .sem (a.n .sem), sv := sv } u' t 1 st' fr ub := by
  fin h

theorem I.got (h : I late a 4 t w st fr ub) {st' : Nat} (hs : st' ≠ 0) : I late a 2 t w st' fr ub := by
  fin h

/-- The abstract decrement of the reference count. -/
def Ab.un (a : Ab) (t : Th) : Ab :=
  { a with n := up a.n .refs (a.n .refs + 1), vl := upv a.vl .refs (a.vl .refs - 1)
           rv := up (fun x => max (a.c t x) (a.rv x)) .refs (a.n .refs) }.setc t (up (fun x => max (a.c t x) (a.rv x)) .refs (a.n .refs))

theorem I.unU (h : I late a 5 t w st fr ub) : I late (a.un .U) 6 t w st (if a.vl .refs = 1 then fr + 1 else fr) ub := by
  unfold Ab.un; fin h

theorem I.unT (h : I late a u 4 w st fr ub) : I late (a.un .T) u 5 w st (if a.vl .refs = 1 then fr + 1 else fr) ub := by
  unfold Ab.un; fin h

theorem I.reuse (h : I late a u t 1 st fr ub) (v : Int) : I late (a.wr .U .cd v) u t 1 st fr ub := by
  unfold Ab.wr; fin h

theorem I.start (h : I late a u 0 w st fr ub) (h2 : 2 ≤ u) :
    I late { a with ct := fun x => max (max (a.ct x) (if x = .sub then 1 else 0)) (a.bv x) } u 1 w st fr ub := by
  fin h

theorem I.use (h : I late a u t w st fr ub) (h2 : t = 1 ∨ late = true) : I late (a.wr .T .tr 0) u t w st fr ub := by
  unfold Ab.wr; fin h

theorem I.work (h : I late a u 1 w st fr ub) (v : Int) : I late (a.wr .T .eff v) u 1 w st fr ub := by
  unfold Ab.wr; fin h

theorem I.ret (h : I late a u 1 w st fr ub) (v : Int) : I late (a.wr .T .res v) u 2 w st fr ub := by
  unfold Ab.wr; fin h

theorem I.release (h : I late a u 2 w st fr ub) :
    I late { a with n := up a.n .sem (a.n .sem + 1), vl := upv a.vl .sem (a.vl .sem + 1), ct := up a.ct .sem (a.n .sem), sv := fun x => max (up a.ct .sem (a.n .sem) x) (a.sv x) } u 3 w st fr ub := by
  fin h

theorem I.notify (h : I late a u 3 w st fr ub) : I late a u 4 w st fr ub := by
  fin h

theorem I.params (h : I late a u 5 w st fr ub) : I late a u 6 w st fr ub := by
  fin h

theorem I.bad (h : I true a u t w st fr ub) : I true a u t w st fr true := by
  fin h

end Verif.Weak.Fut
