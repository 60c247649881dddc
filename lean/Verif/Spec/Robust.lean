import Verif.Spec.System
import Verif.Model.Analyze
import Mathlib.Analysis.Convex.Basic

/-
Words for minima of the potential: distances, forces and curvatures.
-/
namespace Electrode.Spec
open Set

/-- Euclidean length -/
noncomputable def vlen (x : Fin 3 → ℝ) : ℝ := √(∑ a, x a ^ 2)

/-- the closed ball of positions around `x` -/
def rball (x : Fin 3 → ℝ) (R : ℝ) : Set (Fin 3 → ℝ) := {y | vlen (y - x) ≤ R}

/-- the value of the combined potential -/
noncomputable def valueAt (s : Sys) (x : Fin 3 → ℝ) : ℝ := totalAt s [] (toV3 x)

/-- the gradient of the combined potential, as `potential(x, 1)` returns it -/
noncomputable def slopeAt (s : Sys) (x : Fin 3 → ℝ) : Fin 3 → ℝ := fun a => totalAt s [a] (toV3 x)

/-- on the whole region `K` the potential curves upwards by at least `lam` in each direction -/
def Stiff (s : Sys) (lam : ℝ) (K : Set (Fin 3 → ℝ)) : Prop :=
  ∀ x ∈ K, ∀ v : Fin 3 → ℝ, lam * ∑ a, v a ^ 2 ≤ ∑ a, ∑ b, v a * totalAt s [a, b] (toV3 x) * v b

/-- no point of the region lies on an electrode or its images -/
def clearOf (s : Sys) (K : Set (Fin 3 → ℝ)) : Prop := ∀ x ∈ K, offSystem s.els (toV3 x)

/-- What a minimiser with a tolerance for the gradient promises: if it reports success, the gradient it was given is not longer than
`ε` at the point it returns. -/
def StopsBelow (minimize : (List ℝ → Py ℝ) → (List ℝ → Py (List ℝ)) → (List ℝ → Py (List (List ℝ))) → List ℝ → Py (Bool × List ℝ)) (ε : ℝ) : Prop :=
  ∀ f g h x r, minimize f g h x = .ok (true, r) → r.length = x.length ∧ ∃ gr, g r = .ok gr ∧ √((gr.map (· ^ 2)).sum) ≤ ε

end Electrode.Spec
