import Verif.Spec.System

/-
The energy of several ions in a trap.
-/
namespace Electrode.Spec
open Real

/-- Euclidean distance -/
noncomputable def dist3 (u v : Fin 3 → ℝ) : ℝ := √((u 0 - v 0) ^ 2 + (u 1 - v 1) ^ 2 + (u 2 - v 2) ^ 2)

/-- Energy of ions at the positions `x`: the trap potential at each of them and `q i * q j / distance` for
each pair. -/
noncomputable def ionEnergy (φ : V3 → ℝ) {n : Nat} (q : Fin n → ℝ) (x : Fin n → Fin 3 → ℝ) : ℝ :=
  ∑ i, φ ⟨x i 0, x i 1, x i 2⟩ + ∑ i, ∑ j, if i < j then q i * q j / dist3 (x i) (x j) else 0

/-- the configuration with coordinate `a` of ion `k` replaced by `t` -/
def moveIon {n : Nat} (x : Fin n → Fin 3 → ℝ) (k : Fin n) (a : Fin 3) (t : ℝ) : Fin n → Fin 3 → ℝ :=
  Function.update x k (Function.update (x k) a t)

end Electrode.Spec
