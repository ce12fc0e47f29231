import Verif.Space.Leaf
import Verif.Space.Origin
import Verif.Exn.Props

/-! C69: memory scales linearly with the number of workers. -/
namespace Verif.Space
open Verif.Runtime (State Ev linkPar Alive)
open Verif.Exn (XS Reach Disc reach_rel disc_tgt)

section
variable {α β : Type}

theorem sum_erase [DecidableEq α] (f : α → Nat) {a : α} : ∀ {l : List α}, a ∈ l → (l.map f).sum = f a + ((l.erase a).map f).sum := by
  intro l
  induction l with
  | nil => intro h; cases h
  | cons b l ih =>
    intro h
    by_cases e : b = a
    · subst e; simp
    · have h1 : a ∈ l := by rcases List.mem_cons.1 h with h | h; exact absurd h.symm e; exact h
      rw [List.erase_cons_tail (by simpa using e)]
      simp only [List.map_cons, List.sum_cons, ih h1]; omega

/-- Distinct elements of a list. -/
theorem sum_le [DecidableEq α] (f : α → Nat) : ∀ {l m : List α}, l.Nodup → (∀ a ∈ l, a ∈ m) → (l.map f).sum ≤ (m.map f).sum := by
  intro l
  induction l with
  | nil => intro m _ _; simp
  | cons a l ih =>
    intro m hn hm
    rw [List.nodup_cons] at hn
    rw [sum_erase f (hm a (List.mem_cons_self ..)), List.map_cons, List.sum_cons]
    refine Nat.add_le_add_left (ih hn.2 fun b hb => ?_) _
    refine (List.mem_erase_of_ne ?_).2 (hm b (List.mem_cons_of_mem _ hb))
    rintro rfl; exact hn.1 hb

theorem sum_flat (f : β → Nat) (g : α → List β) (S : Nat) : ∀ {l : List α}, (∀ a ∈ l, ((g a).map f).sum ≤ S) → ((l.flatMap g).map f).sum ≤ l.length * S := by
  intro l
  induction l with
  | nil => intro _; simp
  | cons a l ih =>
    intro h
    simp only [List.flatMap_cons, List.map_append, List.sum_append, List.length_cons]
    have h1 := h a (List.mem_cons_self ..)
    have h2 := ih fun b hb => h b (List.mem_cons_of_mem _ hb)
    rw [Nat.succ_mul]; omega

theorem nodup_flat {g : α → List β} {key : β → α} (hg : ∀ a b, b ∈ g a → key b = a) (hn : ∀ a, (g a).Nodup) : ∀ {l : List α}, l.Nodup → (l.flatMap g).Nodup := by
  intro l
  induction l with
  | nil => intro _; simp
  | cons a l ih =>
    intro h
    rw [List.nodup_cons] at h
    rw [List.flatMap_cons, List.nodup_append]
    refine ⟨hn a, ih h.2, fun x hx y hy e => ?_⟩
    subst e
    obtain ⟨b, hb, hy⟩ := List.mem_flatMap.1 hy
    rw [← hg a x hx, hg b x hy] at h
    exact h.1 hb
end

variable {σ V E : Type} {body : σ → Exn.Act σ V E} {pend : σ → Nat} {dirty : σ → Prop} {may : E → Prop}

/-- What is needed of the invariants. -/
structure Shape (s : State σ (Except E V)) : Prop where
  below : ∀ f k, f ∈ s.al k → ∃ g, g < s.nf ∧ Anc s.link f g ∧ ((∃ w, holds s w = some g) ∨ ∃ w, g ∈ s.inbox w)
  leaf : ∀ f k, f ∈ s.al k → (∃ w, holds s w = some f) ∨ (∃ w, f ∈ s.inbox w) ∨ ∃ c k', c ∈ s.al k' ∧ linkPar (s.link c) = some f
  older : ∀ f p, f < s.nf → linkPar (s.link f) = some p → p < f
  line : ∀ f g, Anc s.link f g → ∀ n, g < n → g < s.nf → f ∈ line s.link n g
  queue : ∀ w x, x ∈ s.q w → ∃ g, holds s w = some g ∧ g < s.nf ∧ Anc s.link x.1 g
  qnd : ∀ w, ((s.q w).map Prod.fst).Nodup
  nd : ∀ k, (s.al k).Nodup
  stk : ∀ f k, f ∈ s.al k → s.stk f = k
  idle : ∀ w, s.pc w = .idle → s.q w = []
  held : ∀ w g, holds s w = some g → g < s.nf
  ind : ∀ w, (s.inbox w).Nodup
  inb : ∀ w f, f ∈ s.inbox w → s.loc f = .inbox w

theorem nodup_fst {α β : Type} : ∀ {l : List (α × β)}, l.Nodup → (∀ a b c, (a, b) ∈ l → (a, c) ∈ l → b = c) → (l.map Prod.fst).Nodup := by
  intro l
  induction l with
  | nil => intro _ _; simp
  | cons x l ih =>
    intro h hu
    rw [List.nodup_cons] at h
    rw [List.map_cons, List.nodup_cons]
    refine ⟨fun hx => ?_, ih h.2 fun a b c hb hc => hu a b c (List.mem_cons_of_mem _ hb) (List.mem_cons_of_mem _ hc)⟩
    obtain ⟨⟨a, b⟩, hy, e⟩ := List.mem_map.1 hx
    obtain ⟨a', b'⟩ := x
    cases e
    have := hu a b b' (List.mem_cons_of_mem _ hy) (List.mem_cons_self ..)
    subst this
    exact h.1 hy

theorem inv_shape {τ W : Type} {s : State τ W} (hl : Runtime.InvLoc s) (hk : Runtime.InvLink s) (hc : Runtime.InvCount s) (hq : Runtime.InvQ s) (ht : Runtime.InvStk s) :
    (∀ f k, f ∈ s.al k → ∃ g, g < s.nf ∧ Anc s.link f g ∧ ((∃ w, holds s w = some g) ∨ ∃ w, g ∈ s.inbox w)) ∧
    (∀ f k, f ∈ s.al k → (∃ w, holds s w = some f) ∨ (∃ w, f ∈ s.inbox w) ∨ ∃ c k', c ∈ s.al k' ∧ linkPar (s.link c) = some f) ∧
    (∀ w, ((s.q w).map Prod.fst).Nodup) ∧ ∀ w g, holds s w = some g → g < s.nf := by
  refine ⟨fun f k h => below hl hk hq hc ((ht.mem f k).1 h).1, fun f k h => ?_, fun w => ?_, fun w g h => ?_⟩
  · rcases busy_leaf hl hk hq hc ((ht.mem f k).1 h).1 with h | h | ⟨c, h1, h2⟩
    · exact .inl h
    · exact .inr (.inl h)
    · exact .inr (.inr ⟨c, _, (ht.mem c _).2 ⟨h1, rfl⟩, h2⟩)
  · refine nodup_fst (hl.qnd w) fun a b c hb hc => ?_
    have h1 := (hl.queue w a b).2 hb
    rw [(hl.queue w a c).2 hc] at h1
    cases h1; rfl
  · have al : ∀ f, Alive (s.loc f) → f < s.nf := fun f => alive_lt hl
    have run : ∀ f, s.loc f = .running w → f < s.nf := fun f e => al f (by rw [e]; trivial)
    have kid : ∀ c p, Runtime.forkPar (s.link c) = some p → s.loc c = .finishing w → p < s.nf := fun c p h1 h2 =>
      al p (hk.kid c p h1 (by rw [h2]; simp) (by rw [h2]; simp))
    have qh : (s.q w).head?.map Prod.fst = some g → g < s.nf := fun e => by
      obtain ⟨x, hx, rfl⟩ := Option.map_eq_some_iff.1 e
      refine al _ ?_
      rw [(hl.queue w x.1 x.2).2 (List.mem_of_mem_head? hx)]; trivial
    unfold holds at h
    cases hp : s.pc w with
    | idle => rw [hp] at h; exact qh h
    | finLose _ => rw [hp] at h; exact qh h
    | selfSteal => rw [hp] at h; exact qh h
    | switchRel _ => rw [hp] at h; exact qh h
    | run f => rw [hp] at h; cases h; exact run _ ((hl.run w _).2 (.inl hp))
    | joinLoad f => rw [hp] at h; cases h; exact run _ ((hl.run w _).2 (.inr (.inl hp)))
    | joinSub f => rw [hp] at h; cases h; exact run _ ((hl.run w _).2 (.inr (.inr hp)))
    | joinTake f => rw [hp] at h; cases h; exact al _ (by rw [(hl.win w _).2 (.inl hp)]; trivial)
    | stole f => rw [hp] at h; cases h; exact al _ (by rw [(hl.sto w _).2 hp]; trivial)
    | finPop p c => rw [hp] at h; cases h; exact kid c _ (hk.flink w _ c hp) ((hl.fin w c).2 ⟨_, .inl hp⟩)
    | finDec p c b => rw [hp] at h; cases h; exact kid c _ (hk.flink' w _ c b hp) ((hl.fin w c).2 ⟨_, .inr ⟨b, hp⟩⟩)
    | finWin p b => rw [hp] at h; cases h; exact al _ (by rw [(hl.win w _).2 (.inr ⟨b, hp⟩)]; trivial)

theorem shape (hd : Disc body pend dirty) {s : XS σ V E} (h : Reach body pend may s) : Shape s.c := by
  obtain ⟨es, r, hr, hrel⟩ := reach_rel hd h fun _ => .nil
  have hi := Verif.Runtime.reach_inv (disc_tgt hd) hr
  obtain ⟨h1, h2, h3, h4⟩ := inv_shape hi.loc hi.link hi.count hi.q hi.stk
  have eh : ∀ w, holds r w = holds s.c w := fun w => by unfold holds; rw [hrel.base.pc, hrel.base.q]
  simp only [eh, hrel.base.al, hrel.base.nf, hrel.base.link, hrel.base.inbox, hrel.base.q] at h1 h2 h3 h4
  refine ⟨h1, h2, ?_, ?_, ?_, h3, ?_, ?_, ?_, h4, fun w => by rw [← hrel.base.inbox]; exact hi.loc.ind w, fun w f hf => ?_⟩
  · intro f p hf hp
    rw [← hrel.base.link] at hp
    rw [← hrel.base.nf] at hf
    exact older hi.link hf hp
  · intro f g ha n h5 h6
    rw [← hrel.base.link] at ha ⊢
    rw [← hrel.base.nf] at h6
    exact anc_line hi.link ha h5 h6
  · intro w x hx
    rw [← hrel.base.q] at hx
    obtain ⟨g, h5, h6, h7⟩ := queue_line hi.loc hi.link hi.q hx
    rw [eh] at h5
    rw [hrel.base.nf] at h6
    rw [hrel.base.link] at h7
    exact ⟨g, h5, h6, h7⟩
  · intro k; rw [← hrel.base.al]; exact hi.stk.nd k
  · intro f k hf
    rw [← hrel.base.al] at hf
    rw [← hrel.base.stk]; exact ((hi.stk.mem f k).1 hf).2
  · intro w hw
    rw [← hrel.base.pc] at hw
    rw [← hrel.base.q]; exact hi.q.idl w hw
  · rw [← hrel.base.inbox] at hf
    rw [← hrel.base.loc]; exact (hi.loc.inb w f).2 hf

/-- The ancestors of a task are nested tasks. -/
theorem line_nested {s : XS σ V E} (hF : From body s) : ∀ (n g : Nat) (l : List σ), g < s.c.nf → Nested body (s.c.init g) l →
    ∃ r l', r < s.c.nf ∧ Nested body (s.c.init r) l' ∧ (∃ w, Ev.submit r (s.c.init r) w ∈ s.c.log ∨ n ≤ (line s.c.link n g).length) ∧
      ∀ size : σ → Nat, (((line s.c.link n g).tail.map fun f => size (s.c.init f)).sum + (l.map size).sum ≤ (l'.map size).sum) := by
  intro n
  induction n with
  | zero => intro g l hg hl; exact ⟨g, l, hg, hl, ⟨0, .inr (Nat.zero_le _)⟩, fun size => by simp [line]⟩
  | succ n ih =>
    intro g l hg hl
    cases e : linkPar (s.c.link g) with
    | none =>
      obtain ⟨w, hw⟩ := hF.root g hg e
      exact ⟨g, l, hg, hl, ⟨w, .inl hw⟩, fun size => by simp [line, e]⟩
    | some p =>
      obtain ⟨h1, h2⟩ := hF.par g hg p e
      obtain ⟨r, l', h3, h4, ⟨w, h5⟩, h6⟩ := ih p _ h1 (.more h2 hl)
      refine ⟨r, l', h3, h4, ⟨w, ?_⟩, fun size => ?_⟩
      · rcases h5 with h5 | h5
        · exact .inl h5
        · right; simp only [line, e, List.length_cons]; omega
      · have := h6 size
        simp only [line, e, List.tail_cons]
        cases n with
        | zero => simp only [line, List.map_nil, List.sum_nil, List.tail_nil, List.map_cons, List.sum_cons] at this ⊢; omega
        | succ n => simp only [line, List.map_cons, List.sum_cons, List.tail_cons] at this ⊢; omega

/-- The line ends before the fuel does. -/
theorem line_len {s : XS σ V E} (ho : ∀ f p, f < s.c.nf → linkPar (s.c.link f) = some p → p < f) : ∀ n g, g < s.c.nf → (line s.c.link n g).length ≤ g + 1 := by
  intro n
  induction n with
  | zero => intro g _; simp [line]
  | succ n ih =>
    intro g hg
    simp only [line, List.length_cons]
    cases e : linkPar (s.c.link g) with
    | none => simp
    | some p =>
      have h1 := ho g p hg e
      have h2 := ih p (by omega)
      simp only; omega

variable {size : σ → Nat} {S N : Nat}

/-- The ancestors of a task need no more than the serial execution of a submitted task does. -/
theorem line_needs (hd : Disc body pend dirty) {s : XS σ V E} (h : Reach body pend may s) (hsub : ∀ f c w, Ev.submit f c w ∈ s.c.log → Needs body size S c)
    {g : Nat} (hg : g < s.c.nf) : ((line s.c.link (g + 2) g).map fun f => size (s.c.init f)).sum ≤ S := by
  obtain ⟨r, l', _, h2, ⟨w, h3⟩, h4⟩ := line_nested (reach_from hd h) (g + 2) g _ hg (.one _)
  have h5 := line_len (shape hd h).older (g + 2) g hg
  have h6 : Ev.submit r (s.c.init r) w ∈ s.c.log := by
    rcases h3 with h3 | h3
    · exact h3
    · omega
  have h7 := hsub _ _ _ h6 l' h2
  have h8 := h4 size
  simp only [line, List.tail_cons, List.map_cons, List.sum_cons, List.map_nil, List.sum_nil] at h8 ⊢
  omega

/-- **C69.** At any time every frame is that of a task that a worker is busy with, or that has been submitted and waits for a worker, or of which a child is not finished: no
frame is kept for nothing. -/
theorem C69_busy_leaves (hd : Disc body pend dirty) {s : XS σ V E} (h : Reach body pend may s) {f k : Nat} (hf : f ∈ s.c.al k) :
    (∃ w, holds s.c w = some f) ∨ (∃ w, f ∈ s.c.inbox w) ∨ ∃ c k', c ∈ s.c.al k' ∧ linkPar (s.c.link c) = some f := (shape hd h).leaf f k hf

/-- **C69.** At any time, in any schedule: if no submitted task needs more than `S` when executed serially, the frames of all tasks on `N` workers need no more than `S` for each worker and
each task that waits for one. -/
theorem C69_space (hd : Disc body pend dirty) {s : XS σ V E} (h : Reach body pend may s) (hN : Within s.c N)
    (hsub : ∀ f c w, Ev.submit f c w ∈ s.c.log → Needs body size S c) {ks : List Nat} (hk : ks.Nodup) : bytes size s.c ks ≤ (N + waiting s.c N) * S := by
  have sh := shape hd h
  let leaves := (List.range N).flatMap fun w => (holds s.c w).toList ++ s.c.inbox w
  have hlen : ∀ M, ((List.range M).flatMap fun w => (holds s.c w).toList ++ s.c.inbox w).length ≤ M + waiting s.c M := by
    intro M
    induction M with
    | zero => simp [waiting]
    | succ M ih =>
      simp only [List.range_succ, List.flatMap_append, List.length_append, List.flatMap_cons, List.flatMap_nil, List.append_nil, waiting, List.map_append, List.map_cons,
        List.map_nil, List.sum_append, List.sum_cons, List.sum_nil] at ih ⊢
      have : (holds s.c M).toList.length ≤ 1 := by cases holds s.c M <;> simp
      omega
  have hin : ∀ g, g < s.c.nf → ((∃ w, holds s.c w = some g) ∨ ∃ w, g ∈ s.c.inbox w) → g ∈ leaves := by
    intro g _ hg
    have lt : ∀ w, ¬ N ≤ w → w ∈ List.range N := fun w hw => List.mem_range.2 (by omega)
    rcases hg with ⟨w, hw⟩ | ⟨w, hw⟩
    · refine List.mem_flatMap.2 ⟨w, lt w fun hle => ?_, List.mem_append_left _ (by rw [hw]; exact List.mem_singleton_self g)⟩
      have h1 := (hN w hle).1
      unfold holds at hw
      rw [h1] at hw
      simp only [sh.idle w h1, List.head?_nil, Option.map_none] at hw
      cases hw
    · refine List.mem_flatMap.2 ⟨w, lt w fun hle => ?_, List.mem_append_right _ hw⟩
      rw [(hN w hle).2] at hw; cases hw
  have hsub' : ∀ f ∈ frames s.c ks, f ∈ (leaves.filter fun g => decide (g < s.c.nf)).flatMap fun g => line s.c.link (g + 2) g := by
    intro f hf
    obtain ⟨k, _, hf⟩ := List.mem_flatMap.1 hf
    obtain ⟨g, h1, h2, h3⟩ := sh.below f k hf
    exact List.mem_flatMap.2 ⟨g, List.mem_filter.2 ⟨hin g h1 h3, decide_eq_true h1⟩, sh.line f g h2 (g + 2) (by omega) h1⟩
  have hnd : (frames s.c ks).Nodup := nodup_flat (key := s.c.stk) (fun k f hf => sh.stk f k hf) sh.nd hk
  refine Nat.le_trans (sum_le _ hnd hsub') (Nat.le_trans (sum_flat _ _ S fun g hg => ?_) ?_)
  · have := (List.mem_filter.1 hg).2
    exact line_needs hd h hsub (of_decide_eq_true this)
  · exact Nat.mul_le_mul_right S (Nat.le_trans (List.length_filter_le _ _) (hlen N))

theorem bytes_one (s : State σ (Except E V)) (ks : List Nat) : bytes (fun _ => 1) s ks = (frames s ks).length := by
  unfold bytes
  induction frames s ks with
  | nil => rfl
  | cons a l ih => simp only [List.map_cons, List.sum_cons, ih, List.length_cons]; omega

/-- **C69.** So does the number of stacks that are in use: if tasks are never nested deeper than `D`, there are at most `D` for each worker and each task that waits for one. -/
theorem C69_stacks (hd : Disc body pend dirty) {s : XS σ V E} (h : Reach body pend may s) (hN : Within s.c N) {D : Nat}
    (hsub : ∀ f c w, Ev.submit f c w ∈ s.c.log → Needs body (fun _ => 1) D c) {ks : List Nat} (hk : ks.Nodup) (hne : ∀ k ∈ ks, s.c.al k ≠ []) :
    ks.length ≤ (N + waiting s.c N) * D := by
  refine Nat.le_trans ?_ (C69_space hd h hN hsub hk)
  rw [bytes_one]
  clear hk
  induction ks with
  | nil => simp
  | cons k ks ih =>
    have h1 := ih fun k' hk' => hne k' (List.mem_cons_of_mem _ hk')
    have h2 := List.length_pos_iff.2 (hne k (List.mem_cons_self ..))
    simp only [frames, List.flatMap_cons, List.length_append, List.length_cons] at h1 ⊢
    omega

/-- **C69.** The queue of a worker never holds more tasks than are nested. -/
theorem C69_queue (hd : Disc body pend dirty) {s : XS σ V E} (h : Reach body pend may s) {D : Nat} (hsub : ∀ f c w, Ev.submit f c w ∈ s.c.log → Needs body (fun _ => 1) D c)
    (w : Nat) : (s.c.q w).length ≤ D := by
  have sh := shape hd h
  cases hg : holds s.c w with
  | none =>
    cases hQ : s.c.q w with
    | nil => simp
    | cons x Q =>
      obtain ⟨g, h1, _⟩ := sh.queue w x (by rw [hQ]; exact List.mem_cons_self ..)
      rw [hg] at h1; cases h1
  | some g =>
    have hlt := sh.held w g hg
    have h1 := sum_le (fun _ : Nat => 1) (sh.qnd w) (m := line s.c.link (g + 2) g) fun f hf => by
      obtain ⟨x, hx, rfl⟩ := List.mem_map.1 hf
      obtain ⟨g', h1, h2, h3⟩ := sh.queue w x hx
      rw [hg] at h1; cases h1
      exact sh.line _ _ h3 _ (by omega) h2
    have h2 := line_needs hd h hsub hlt
    have h3 : ∀ l : List Nat, (l.map fun _ => 1).sum = l.length := fun l => by
      induction l with
      | nil => rfl
      | cons a l ih => simp only [List.map_cons, List.sum_cons, ih, List.length_cons]; omega
    rw [h3, h3, List.length_map] at h1
    rw [h3] at h2
    omega

end Verif.Space
