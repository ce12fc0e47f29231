import Verif.Mem.Foot

/-! A task run by one thread changes only what it may write. -/
namespace Verif.Mem

variable {σ V E L : Type} [DecidableEq L] {body : σ → Act σ V E L} {may : E → Prop} {F : Foot σ L}

theorem ser_frame (hF : F.Ok body may) {x rs es M r M'} (h : SerM body may x rs es M r M') (hi : F.I x) : ∀ l, ¬ F.W x l → M' l = M l := by
  induction h with
  | ret => exact fun _ _ => rfl
  | throw => exact fun _ _ => rfl
  | fork b hb _ _ ih1 ih2 =>
    obtain ⟨h1, h2, _⟩ := hF.fork _ _ _ _ hi hb
    exact fun l hl => (ih2 (h2 b).I l (fun h => hl ((h2 b).W l h))).trans (ih1 h1.I l (fun h => hl (h1.W l h)))
  | call hb _ _ ih1 ih2 =>
    obtain ⟨h1, h2, _⟩ := hF.call _ _ _ _ hi hb
    exact fun l hl => (ih2 (h2 _).I l (fun h => hl ((h2 _).W l h))).trans (ih1 h1.I l (fun h => hl (h1.W l h)))
  | callThrew hb _ _ ih1 ih2 =>
    obtain ⟨h1, h2, _⟩ := hF.call _ _ _ _ hi hb
    exact fun l hl => (ih2 (h2 _).I l (fun h => hl ((h2 _).W l h))).trans (ih1 h1.I l (fun h => hl (h1.W l h)))
  | join hb _ _ ih =>
    obtain ⟨h1, _⟩ := hF.join _ _ _ hi hb
    exact fun l hl => ih (h1 _).I l (fun h => hl ((h1 _).W l h))
  | rethrow hb _ _ ih =>
    obtain ⟨_, h1⟩ := hF.join _ _ _ hi hb
    exact fun l hl => ih (h1 _ _).I l (fun h => hl ((h1 _ _).W l h))
  | switch hb _ ih =>
    obtain ⟨h1, _⟩ := hF.switch _ _ _ _ hi hb
    exact fun l hl => ih h1.I l (fun h => hl (h1.W l h))
  | forkFails e he hb _ ih =>
    obtain ⟨_, _, h1, _⟩ := hF.fork _ _ _ _ hi hb
    exact fun l hl => ih (h1 e he).I l (fun h => hl ((h1 e he).W l h))
  | callFails e he hb _ ih =>
    obtain ⟨_, _, h1⟩ := hF.call _ _ _ _ hi hb
    exact fun l hl => ih (h1 e he).I l (fun h => hl ((h1 e he).W l h))
  | switchFails e he hb _ ih =>
    obtain ⟨_, h1⟩ := hF.switch _ _ _ _ hi hb
    exact fun l hl => ih (h1 e he).I l (fun h => hl ((h1 e he).W l h))
  | load hb _ ih =>
    obtain ⟨_, _, h1⟩ := hF.load _ _ _ hi hb
    exact fun l hl => ih (h1 _).I l (fun h => hl ((h1 _).W l h))
  | store hb _ ih =>
    obtain ⟨_, _, h2, _, h1⟩ := hF.store _ _ _ _ hi hb
    intro l hl
    rw [ih h1.I l (fun h => hl (h1.W l h)), put]
    split
    · rename_i e; rw [e] at hl; exact absurd h2 hl
    · rfl

end Verif.Mem
