import Verif.Hb.Whole
import Verif.Par.Props

/-! C74: the algorithms have no data race, and who waits for them sees what they computed. -/
namespace Verif.Hb.Par
open Verif.Hb
open Verif.Par (T Dat body pend ok vals task ok_mono ok_pend raceFree pend_le disc MemOf C63_map C63_for_each C63_fold C63_fold_assoc)
open Verif.Mem (MS subs Acc)
open Verif.Runtime (Ev)
variable {L V E : Type} [DecidableEq L]

/-- **C74.** Programs of the kind `map`, `for_each` and `fold` are made of, submitted by any threads: as long as those that run at the same time have no race (and one that a thread has not
waited for may still run), of any two accesses to one location, one of which is a write, the earlier one happens before the later one. -/
theorem C74_programs {may : Dat V E → Prop} {m : L → V} {a : HS (T L V E) Unit (Dat V E) L} (h : ReachAny body pend may ok (vals m) a) :
    a.tr.Pairwise fun r r' => Conflict r r' → r'.no ∈ r.known :=
  C73_ordered disc ok_mono (raceFree may _) (C73_bounded disc pend_le h)

/-- **C74.** So every load reads the only value that happens-before lets it read. -/
theorem C74_reads {may : Dat V E → Prop} {m : L → V} {a : HS (T L V E) Unit (Dat V E) L} (h : ReachAny body pend may ok (vals m) a) :
    ∃ o : List (Rec L × Acc (Dat V E) L), (o.map Prod.fst = a.tr.filter fun r => r.acc.isSome) ∧ o.map Prod.snd = a.s.hist ∧ (∀ p ∈ o, Same p.1 p.2) ∧
      ∀ r f l d, (r, .load f l d) ∈ o → Sees (vals m) o r l d :=
  C73_reads disc ok_mono (raceFree may _) (C73_bounded disc pend_le h)

theorem any_mem {may : Dat V E → Prop} {m : L → V} {a : HS (T L V E) Unit (Dat V E) L} (h : ReachAny body pend may ok (vals m) a) : Mem.ReachAny body pend may ok (vals m) a.s := by
  have h := reach_mem disc ok_mono (C73_bounded disc pend_le h)
  generalize a.s = s at h
  induction h with
  | start y => exact .start y
  | submit w _ _ h1 h2 ih => exact .submit w ih h1 h2
  | step _ _ h1 h2 ih => exact .step ih h1 h2

theorem wait_s {σ V E L : Type} {a a' : HS σ V E L} {t f : Nat} (h : wait a t f = .ok a') : a'.s = a.s := by
  unfold wait at h
  split at h <;> cases h
  rfl

variable {g : V → Except E V} {n src dst len : Nat} {m : MemOf V} {f t : Nat} {may : Dat V E → Prop} {a a' : HS (T Algo.Loc V E) Unit (Dat V E) Algo.Loc}

/-- **C74, `lf::map`.** A thread has waited for a `map`, the only call so far: all its accesses happen before what the thread does next, so it sees the memory; if the call returned (`r`), output `i` is the
function of input `i` there. -/
theorem C74_map (hn : 0 < n) (ha : Algo.SameOrApart src dst len) {p : Algo.Prog V E} (hp : Algo.IsMap g n src dst len p) (h : ReachAny body pend may ok (vals m) a)
    (hs : subs a.s.x.c.log = [(f, task p)]) (hw : wait a t f = .ok a') :
    (∀ x ∈ a'.tr, x.no ∈ a'.h.kt t) ∧ ∃ r, Ev.done f r ∈ a'.s.x.c.log ∧ ∃ m' : MemOf V, a'.s.m = vals m' ∧
      (r = .ok () → ∀ i < len, g (m (.cell (src + i))) = .ok (m' (.cell (dst + i)))) ∧
      (∀ d, r = .error d → (∃ e, may e) ∨ ∃ e, d = .exn e ∧ ∃ i < len, g (m (.cell (src + i))) = .error e) ∧ ∀ l, (∀ i < len, l ≠ .cell (dst + i)) → m' l = m l := by
  obtain ⟨⟨r, hr⟩, hk⟩ := C74_wait disc ok_mono (C73_bounded disc pend_le h) hs hw
  have htr : a'.tr = a.tr := by unfold wait at hw; split at hw <;> cases hw; rfl
  rw [htr, wait_s hw]
  exact ⟨hk, r, hr, C63_map hn ha hp (any_mem h) hs hr⟩

/-- **C74, `lf::for_each`.** -/
theorem C74_for_each {head : Nat} (hn : 0 < n) {p : Algo.Prog V E} (hp : Algo.IsForEach g n head len p) (h : ReachAny body pend may ok (vals m) a)
    (hs : subs a.s.x.c.log = [(f, task p)]) (hw : wait a t f = .ok a') :
    (∀ x ∈ a'.tr, x.no ∈ a'.h.kt t) ∧ ∃ r, Ev.done f r ∈ a'.s.x.c.log ∧ ∃ m' : MemOf V, a'.s.m = vals m' ∧
      (r = .ok () → ∀ i < len, g (m (.cell (head + i))) = .ok (m' (.cell (head + i)))) ∧
      (∀ d, r = .error d → (∃ e, may e) ∨ ∃ e, d = .exn e ∧ ∃ i < len, g (m (.cell (head + i))) = .error e) ∧ ∀ l, (∀ i < len, l ≠ .cell (head + i)) → m' l = m l :=
  C74_map hn (Or.inl rfl) (Algo.isForEach_isMap hp) h hs hw

/-- **C74, `lf::fold`** with an associative operator; no function throws and no allocation fails. -/
theorem C74_fold {head : Nat} (pr : V → V) (op : V → V → V) (assoc : ∀ a b c, op (op a b) c = op a (op b c)) (hn : 0 < n) (hlen : 0 < len)
    {p : Algo.Prog V E} (hp : Algo.foldTop (fun x => .ok (pr x)) (fun a b => .ok (op a b)) n head len = some p) (h : ReachAny body pend (fun _ => False) ok (vals m) a)
    (hs : subs a.s.x.c.log = [(f, task p)]) (hw : wait a t f = .ok a') :
    (∀ x ∈ a'.tr, x.no ∈ a'.h.kt t) ∧ Ev.done f (.ok ()) ∈ a'.s.x.c.log ∧ ∃ m' : MemOf V, a'.s.m = vals m' ∧
      m' .res = ((Algo.cells m (head + 1) (len - 1)).map pr).foldl op (pr (m (.cell head))) ∧ ∀ a, m' (.cell a) = m (.cell a) := by
  obtain ⟨⟨r, hr⟩, hk⟩ := C74_wait disc ok_mono (C73_bounded disc pend_le h) hs hw
  have htr : a'.tr = a.tr := by unfold wait at hw; split at hw <;> cases hw; rfl
  rw [htr, wait_s hw]
  obtain ⟨m', h1, rfl, h3, h4⟩ := C63_fold_assoc pr op assoc hn hlen hp (any_mem h) hs hr
  exact ⟨hk, hr, m', h1, h3, h4⟩

end Verif.Hb.Par
