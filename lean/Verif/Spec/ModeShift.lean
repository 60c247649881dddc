import Verif.Model.Dynamics

/-
What is assumed of `numpy.linalg.eigh` with rounding errors.
-/
namespace Electrode.Spec

/-- The eigenvalues `eigh` returns are, in ascending order, those of a symmetric matrix near the given one: the entries differ by at most the asymmetry of the given
matrix (`eigh` reads one triangle only) plus `ε` times its largest entry. -/
def StableEigh (eigh : Eigh) (ε : ℝ) : Prop :=
  ∀ (N : Nat) (A : Matrix (Fin N) (Fin N) ℝ) (τ S : ℝ), (∀ i j, |A i j - A j i| ≤ τ) → (∀ i j, |A i j| ≤ S) →
    (eigh N A).1.length = N ∧ (eigh N A).1.Pairwise (· ≤ ·) ∧
    ∃ B P : Matrix (Fin N) (Fin N) ℝ, (∀ i j, B i j = B j i) ∧ (∀ i j, |B i j - A i j| ≤ τ + ε * S) ∧
      (∀ i j : Fin N, ∑ k, B i k * P k j = (eigh N A).1.getD j 0 * P i j) ∧ ∀ j j' : Fin N, ∑ i, P i j * P i j' = if j = j' then 1 else 0

end Electrode.Spec
