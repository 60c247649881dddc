import Verif.Spec.Rounding
import Verif.Model.RoundedSystem
import Mathlib.Data.Nat.Choose.Basic

/-
Accurate sums of products, and the sizes of what potentials of systems are made of.
-/
namespace Electrode.Spec

/-- Sums of three products with the error of one multiplication and three additions (one of them to zero), in any order. -/
def AccurateDot (dot : (Axis → ℝ) → (Axis → ℝ) → ℝ) (u : ℝ) : Prop :=
  ∀ a b, |dot a b - ∑ j, a j * b j| ≤ ((1 - u)⁻¹ ^ 4 - 1) * ∑ j, |a j * b j|

/-- the size of what the entries of the derivatives of order `d` are made of; entries that follow from the Laplace equation are sums of two others -/
noncomputable def entrySize (els : List Elec) (typ : VTyp) (d : Nat) (p : V3) : ℝ := 2 * (els.map fun e => e.size d typ p).sum

/-- the same for the derivatives of order `d` of `c² (E₁² + E₂² + E₃²)`, from the product rule -/
noncomputable def pseudoSize (els : List Elec) (c : ℝ) (d : Nat) (p : V3) : ℝ :=
  3 * c ^ 2 * ∑ k ∈ Finset.range (d + 1), d.choose k * entrySize els .rf (k + 1) p * entrySize els .rf (d - k + 1) p

/-- a loop from left to right -/
def loopDot (o : FloatOps) (a b : Axis → ℝ) : ℝ := o.add (o.add (o.add 0 (o.mul (a 0) (b 0))) (o.mul (a 1) (b 1))) (o.mul (a 2) (b 2))

end Electrode.Spec
