import Verif.Runtime.Spec

/-!
The serial elision with the number of its actions: what C45 measures the work of the scheduler against. (A specification, it models no
code.)
-/
namespace Verif.Runtime
variable {σ V : Type}

/-- As `Ser`, and the serial run takes `n` actions: forks, calls, joins, switches and returns of the task and of all its descendants. -/
inductive SerC (body : σ → Act σ V) : σ → List V → V → Nat → Prop
  | ret {x : σ} {v : V} {vs : List V} : body x = .ret v → SerC body x vs v 1
  | fork {x c k : σ} {vs : List V} {y v : V} {m n : Nat} : body x = .fork c k → SerC body c [] y m → SerC body k (vs ++ [y]) v n →
      SerC body x vs v (m + n + 1)
  | call {x c : σ} {k : V → σ} {vs : List V} {y v : V} {m n : Nat} : body x = .call c k → SerC body c [] y m →
      SerC body (k y) vs v n → SerC body x vs v (m + n + 1)
  | join {x : σ} {k : List V → σ} {vs : List V} {v : V} {n : Nat} : body x = .join k → SerC body (k vs) [] v n →
      SerC body x vs v (n + 1)
  | switch {x k : σ} {d : Nat} {vs : List V} {v : V} {n : Nat} : body x = .switch d k → SerC body k vs v n → SerC body x vs v (n + 1)

theorem SerC.ser {body : σ → Act σ V} {x : σ} {vs : List V} {v : V} {n : Nat} (h : SerC body x vs v n) : Ser body x vs v := by
  induction h with
  | ret h => exact .ret h
  | fork h _ _ i1 i2 => exact .fork h i1 i2
  | call h _ _ i1 i2 => exact .call h i1 i2
  | join h _ i => exact .join h i
  | switch h _ i => exact .switch h i

/-- Every terminating serial elision has a cost. -/
theorem Ser.cost {body : σ → Act σ V} {x : σ} {vs : List V} {v : V} (h : Ser body x vs v) : ∃ n, SerC body x vs v n := by
  induction h with
  | ret h => exact ⟨_, .ret h⟩
  | fork h _ _ i1 i2 => obtain ⟨m, i1⟩ := i1; obtain ⟨n, i2⟩ := i2; exact ⟨_, .fork h i1 i2⟩
  | call h _ _ i1 i2 => obtain ⟨m, i1⟩ := i1; obtain ⟨n, i2⟩ := i2; exact ⟨_, .call h i1 i2⟩
  | join h _ i => obtain ⟨n, i⟩ := i; exact ⟨_, .join h i⟩
  | switch h _ i => obtain ⟨n, i⟩ := i; exact ⟨_, .switch h i⟩

theorem SerC.fork_inv {body : σ → Act σ V} {x c k : σ} {vs : List V} {v : V} {n : Nat} (h : SerC body x vs v n)
    (hb : body x = .fork c k) : ∃ y m j, SerC body c [] y m ∧ SerC body k (vs ++ [y]) v j ∧ n = m + j + 1 := by
  cases h with
  | fork h1 h2 h3 => rw [hb] at h1; cases h1; exact ⟨_, _, _, h2, h3, rfl⟩
  | _ => simp_all

theorem SerC.call_inv {body : σ → Act σ V} {x c : σ} {k : V → σ} {vs : List V} {v : V} {n : Nat} (h : SerC body x vs v n)
    (hb : body x = .call c k) : ∃ y m j, SerC body c [] y m ∧ SerC body (k y) vs v j ∧ n = m + j + 1 := by
  cases h with
  | call h1 h2 h3 => rw [hb] at h1; cases h1; exact ⟨_, _, _, h2, h3, rfl⟩
  | _ => simp_all

theorem SerC.join_inv {body : σ → Act σ V} {x : σ} {k : List V → σ} {vs : List V} {v : V} {n : Nat} (h : SerC body x vs v n)
    (hb : body x = .join k) : ∃ j, SerC body (k vs) [] v j ∧ n = j + 1 := by
  cases h with
  | join h1 h2 => rw [hb] at h1; cases h1; exact ⟨_, h2, rfl⟩
  | _ => simp_all

theorem SerC.switch_inv {body : σ → Act σ V} {x k : σ} {d : Nat} {vs : List V} {v : V} {n : Nat} (h : SerC body x vs v n)
    (hb : body x = .switch d k) : ∃ j, SerC body k vs v j ∧ n = j + 1 := by
  cases h with
  | switch h1 h2 => rw [hb] at h1; cases h1; exact ⟨_, h2, rfl⟩
  | _ => simp_all

theorem SerC.ret_inv {body : σ → Act σ V} {x : σ} {u : V} {vs : List V} {v : V} {n : Nat} (h : SerC body x vs v n)
    (hb : body x = .ret u) : v = u ∧ n = 1 := by
  cases h <;> simp_all

end Verif.Runtime
