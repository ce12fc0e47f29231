import Verif.Hb.DataRace
import Verif.Hb.ReadSpec
import Verif.Mem.FootReach

/-!
C73: which write a load reads.
-/
namespace Verif.Hb
open Verif.Runtime (Few)
open Verif.Exn (XS Choice)
open Verif.Mem (MS Act Acc FJ Mono RaceFree put)
variable {σ V E L : Type}

/-- The memory after these accesses, newest first. -/
def replay [DecidableEq L] (m : L → E) : List (Acc E L) → L → E
  | [] => m
  | .load _ _ _ :: h => replay m h
  | .store _ l d :: h => put (replay m h) l d

/-- Every load reads what is there. -/
def Replays [DecidableEq L] (m : L → E) : List (Acc E L) → Prop
  | [] => True
  | .load _ l d :: h => d = replay m h l ∧ Replays m h
  | .store _ _ _ :: h => Replays m h

theorem last_write [DecidableEq L] {m : L → E} {o : List (Rec L × Acc E L)} (ho : ∀ p ∈ o, Same p.1 p.2) (hp : (o.map Prod.fst).Pairwise fun r r' => Conflict r r' → r'.no ∈ r.known) (l : L) :
    (replay m (o.map Prod.snd) l = m l ∧ ∀ r' g d', (r', .store g l d') ∉ o) ∨
    ∃ r' g, (r', .store g l (replay m (o.map Prod.snd) l)) ∈ o ∧ ∀ r'' g' d', (r'', .store g' l d') ∈ o → r'' = r' ∨ r''.no ∈ r'.known := by
  induction o with
  | nil => exact .inl ⟨rfl, fun _ _ _ h => by cases h⟩
  | cons p o ih =>
    obtain ⟨r, x⟩ := p
    have ih := ih (fun p h => ho p (List.mem_cons_of_mem _ h)) (List.pairwise_cons.1 hp).2
    have hs := ho (r, x) (List.mem_cons_self ..)
    have keep : (replay m ((x :: o.map Prod.snd)) l = replay m (o.map Prod.snd) l) → (∀ g d, x ≠ .store g l d) →
        (replay m (x :: o.map Prod.snd) l = m l ∧ ∀ r' g d', (r', .store g l d') ∉ (r, x) :: o) ∨
        ∃ r' g, (r', .store g l (replay m (x :: o.map Prod.snd) l)) ∈ (r, x) :: o ∧ ∀ r'' g' d', (r'', .store g' l d') ∈ (r, x) :: o → r'' = r' ∨ r''.no ∈ r'.known := by
      intro h1 h2
      rw [h1]
      have nn : ∀ r' g d', (r', Acc.store g l d') ∈ (r, x) :: o → (r', Acc.store g l d') ∈ o := fun r' g d' h => by
        rcases List.mem_cons.1 h with e | h
        · cases e; exact absurd rfl (h2 g d')
        · exact h
      rcases ih with ⟨h3, h4⟩ | ⟨r', g, h3, h4⟩
      · exact .inl ⟨h3, fun r' g d' h => h4 r' g d' (nn r' g d' h)⟩
      · exact .inr ⟨r', g, List.mem_cons_of_mem _ h3, fun r'' g' d' h => h4 r'' g' d' (nn r'' g' d' h)⟩
    cases x with
    | load f l' d => exact keep rfl (fun _ _ h => by cases h)
    | store f l' d =>
      by_cases e : l = l'
      · subst e
        right
        refine ⟨r, f, ?_, fun r'' g' d' h => ?_⟩
        · simp only [List.map_cons, replay, put, if_true]; exact List.mem_cons_self ..
        · rcases List.mem_cons.1 h with e | h
          · cases e; exact .inl rfl
          · exact .inr ((List.pairwise_cons.1 hp).1 r'' (List.mem_map.2 ⟨_, h, rfl⟩) ⟨l, true, true, hs.2, (ho _ (List.mem_cons_of_mem _ h)).2, .inl rfl⟩)
      · exact keep (by simp only [replay, put, if_neg e]) (fun _ _ h => by cases h; exact e rfl)

theorem sees [DecidableEq L] {m : L → E} {o : List (Rec L × Acc E L)} (ho : ∀ p ∈ o, Same p.1 p.2) (hp : (o.map Prod.fst).Pairwise fun r r' => Conflict r r' → r'.no ∈ r.known)
    (hr : Replays m (o.map Prod.snd)) : ∀ r f l d, (r, .load f l d) ∈ o → Sees m o r l d := by
  induction o with
  | nil => exact fun _ _ _ _ h => by cases h
  | cons p o ih =>
    obtain ⟨r0, x⟩ := p
    have ho' := fun p h => ho p (List.mem_cons_of_mem _ h)
    have hp' := (List.pairwise_cons.1 hp).2
    have hs := ho (r0, x) (List.mem_cons_self ..)
    have hr' : Replays m (o.map Prod.snd) := by cases x with
      | load => exact hr.2
      | store => exact hr
    intro r f l d h
    rcases List.mem_cons.1 h with e | h
    · cases e
      have hd : d = replay m (o.map Prod.snd) l := hr.1
      have out : ∀ r' g d', (r', Acc.store g l d') ∈ (r0, Acc.load f l d) :: o → (r', Acc.store g l d') ∈ o := fun r' g d' h => by
        rcases List.mem_cons.1 h with e | h
        · cases e
        · exact h
      rcases last_write ho' hp' l with ⟨h1, h2⟩ | ⟨r', g, h1, h2⟩
      · exact .inl ⟨hd.trans h1, fun r' g d' h => absurd (out r' g d' h) (h2 r' g d')⟩
      · right
        rw [← hd] at h1
        exact ⟨r', g, List.mem_cons_of_mem _ h1, (List.pairwise_cons.1 hp).1 r' (List.mem_map.2 ⟨_, h1, rfl⟩) ⟨l, false, true, hs.2, (ho' _ h1).2, .inr rfl⟩,
          fun r'' g' d' h => (h2 r'' g' d' (out r'' g' d' h)).imp id .inl⟩
    · have hl := (ho' _ h).2
      have new : ∀ g d', x = .store g l d' → r.no ∈ r0.known := fun g d' e => by
        rw [e] at hs
        exact (List.pairwise_cons.1 hp).1 r (List.mem_map.2 ⟨_, h, rfl⟩) ⟨l, true, false, hs.2, hl, .inl rfl⟩
      rcases ih ho' hp' hr' r f l d h with ⟨h1, h2⟩ | ⟨r', g, h1, h2, h3⟩
      · refine .inl ⟨h1, fun r' g d' h => ?_⟩
        rcases List.mem_cons.1 h with e | h
        · cases e; exact new g d' rfl
        · exact h2 r' g d' h
      · refine .inr ⟨r', g, List.mem_cons_of_mem _ h1, h2, fun r'' g' d' h => ?_⟩
        rcases List.mem_cons.1 h with e | h
        · cases e; exact .inr (.inr (new g' d' rfl))
        · exact h3 r'' g' d' h

variable [Inhabited E] [DecidableEq L] {body : σ → Act σ V E L} {pend : σ → Nat} {dirty : σ → Prop} {may : E → Prop} {ok : (σ → Prop) → σ → Prop} {m : L → E}

structure Obs (m : L → E) (a : HS σ V E L) (o : List (Rec L × Acc E L)) : Prop where
  fst : o.map Prod.fst = a.tr.filter fun r => r.acc.isSome
  snd : o.map Prod.snd = a.s.hist
  same : ∀ p ∈ o, Same p.1 p.2
  rp : Replays m a.s.hist
  mm : replay m a.s.hist = a.s.m

theorem reach_obs {a : HS σ V E L} (h : Reach body pend may ok m a) : ∃ o, Obs m a o := by
  induction h with
  | start y => exact ⟨[], rfl, rfl, (fun _ h => by cases h), trivial, rfl⟩
  | @submit a c t w h0 hf hp ho ih =>
    obtain ⟨o, O⟩ := ih
    exact ⟨o, O.fst, O.snd, O.same, O.rp, O.mm⟩
  | @step a a' w ch h0 hf hch hs ih =>
    obtain ⟨o, O⟩ := ih
    unfold step at hs
    split at hs <;> cases hs
    rename_i s' hs
    have hc : (∀ f, a.s.x.c.pc w = .run f → Mem.NoAcc body (a.s.x.c.fr f).st) → Mem.control body w ch a.s = .ok s' →
        ∃ o, Obs m ⟨s', sync body w ch a.s.x a.h, order body w ch a s'.x, log body w ch a s'.x⟩ o := by
      intro hn h
      unfold Mem.control at h
      cases hx' : Exn.step (Mem.ctl body) w ch a.s.x with
      | no => rw [hx'] at h; cases h
      | ub => rw [hx'] at h; cases h
      | ok x =>
        rw [hx'] at h
        cases h
        have hacc : access body w a.s.x = none := by
          unfold access
          split
          · rename_i f hp
            split
            · rename_i hb; exact absurd hb ((hn f hp).1 _ _)
            · rename_i hb; exact absurd hb ((hn f hp).2 _ _ _)
            · rfl
          · rfl
        refine ⟨o, ?_, O.snd, O.same, O.rp, O.mm⟩
        rw [O.fst]
        unfold log
        split
        · exact (List.filter_cons_of_neg (by simp [hacc])).symm
        · rfl
    unfold Mem.step at hs
    split at hs
    · rename_i f hp
      split at hs
      · rename_i l k hb
        cases hs
        have hacc : access body w a.s.x = some (l, false) := by simp only [access, hp, hb]
        refine ⟨(⟨a.h.n, f, (sync body w ch a.s.x a.h).kn w, (merge body w ch a.s.x ({ a.s.x with c := Exn.goOn a.s.x.c f (k (a.s.m l)) } : XS σ V E) a.g).L f, access body w a.s.x, counter body w ch a.s.x⟩,
          .load f l (a.s.m l)) :: o, ?_, ?_, fun p hpo => ?_, ⟨by rw [O.mm], O.rp⟩, O.mm⟩
        · simp only [log, who, hp, List.map_cons]
          rw [List.filter_cons_of_pos (by simp [hacc]), O.fst]
        · simp only [List.map_cons, O.snd]
        · rcases List.mem_cons.1 hpo with rfl | hpo
          · exact ⟨rfl, hacc⟩
          · exact O.same p hpo
      · rename_i l d k hb
        cases hs
        have hacc : access body w a.s.x = some (l, true) := by simp only [access, hp, hb]
        refine ⟨(⟨a.h.n, f, (sync body w ch a.s.x a.h).kn w, (merge body w ch a.s.x ({ a.s.x with c := Exn.goOn a.s.x.c f k } : XS σ V E) a.g).L f, access body w a.s.x, counter body w ch a.s.x⟩,
          .store f l d) :: o, ?_, ?_, fun p hpo => ?_, O.rp, by simp only [replay, O.mm]⟩
        · simp only [log, who, hp, List.map_cons]
          rw [List.filter_cons_of_pos (by simp [hacc]), O.fst]
        · simp only [List.map_cons, O.snd]
        · rcases List.mem_cons.1 hpo with rfl | hpo
          · exact ⟨rfl, hacc⟩
          · exact O.same p hpo
      · rename_i hn1 hn2
        refine hc (fun g hg => ?_) hs
        rw [hp] at hg; cases hg
        exact ⟨fun l k h => hn1 l k h, fun l d k h => hn2 l d k h⟩
    · rename_i hn
      exact hc (fun f hf => absurd hf (hn f)) hs
  | @wait a a' t f h0 hs ih =>
    obtain ⟨o, O⟩ := ih
    unfold wait at hs
    split at hs <;> cases hs
    exact ⟨o, O.fst, O.snd, O.same, O.rp, O.mm⟩
  | @other a t h0 ih => obtain ⟨o, O⟩ := ih; exact ⟨o, O.fst, O.snd, O.same, O.rp, O.mm⟩
  | @meet a t u h0 ih => obtain ⟨o, O⟩ := ih; exact ⟨o, O.fst, O.snd, O.same, O.rp, O.mm⟩

/-- C73: and the value every load reads is the only one that happens-before allows: that of a write that happens before it, and before which or after the load all the others happen. So a memory that is not
sequentially consistent gives the same values. `o`: the accesses with what was read and written. -/
theorem C73_reads (hd : Mem.Disc body pend dirty) (hmono : Mono ok) (hrf : RaceFree body may ok m) {a : HS σ V E L} (h : Reach body pend may ok m a) :
    ∃ o : List (Rec L × Acc E L), (o.map Prod.fst = a.tr.filter fun r => r.acc.isSome) ∧ o.map Prod.snd = a.s.hist ∧ (∀ p ∈ o, Same p.1 p.2) ∧
      ∀ r f l d, (r, .load f l d) ∈ o → Sees m o r l d := by
  obtain ⟨o, O⟩ := reach_obs h
  have hp : (o.map Prod.fst).Pairwise fun r r' => Conflict r r' → r'.no ∈ r.known := by
    rw [O.fst]
    exact (C73_ordered hd hmono hrf h).filter _
  exact ⟨o, O.fst, O.snd, O.same, sees O.same hp (by rw [O.snd]; exact O.rp)⟩

/-- C73: programs that keep the rule of C62 (no task accesses what children it has forked and not joined write, nor writes what they access) have no data races. -/
theorem C73_footprint {F : Mem.Foot σ L} (hd : Mem.Disc body pend dirty) (hp : ∀ O c, ok O c → pend c = 0) (hmono : Mono ok) (hF : F.Ok body may) (hR : F.Roots ok) {a : HS σ V E L}
    (h : Reach body pend may ok m a) : a.tr.Pairwise fun r r' => Conflict r r' → r'.no ∈ r.known :=
  C73_ordered hd hmono (Mem.C62_footprint hd hp hF hR) h

end Verif.Hb
