import Verif.Spec.Calculus
import Verif.Spec.Region
import Mathlib.Topology.Instances.Real.Lemmas
import Mathlib.Topology.Order.Compact

/-
The electrostatic problem of a planar trap, stated without any formula for its solution: a
potential above a plane whose value on the plane is prescribed except on some segments, the edges
of the electrodes.
-/
namespace Electrode.Spec
open Filter Topology

/-- A position given by its coordinates. -/
def at3 (t : ℝ × ℝ × ℝ) : V3 := ⟨t.1, t.2.1, t.2.2⟩

/-- All positions above the electrode plane. -/
def above : Set (ℝ × ℝ × ℝ) := {t | 0 < t.2.2}

/-- All positions between the electrode plane and a cover plane at height `h`. -/
def slab (h : ℝ) : Set (ℝ × ℝ × ℝ) := {t | 0 < t.2.2 ∧ t.2.2 < h}

/-- `f` obeys the Laplace equation in `U`: it is continuous, can be differentiated twice along
every axis, and the three second derivatives add up to zero. -/
def ObeysLaplace (U : Set (ℝ × ℝ × ℝ)) (f : V3 → ℝ) : Prop :=
  ContinuousOn (fun t => f (at3 t)) U ∧
  ∃ g : Fin 3 → V3 → ℝ, (∀ a, IsIterated (fun p => (p.x, p.y, p.z) ∈ U) [a, a] f (g a)) ∧
    ∀ p : V3, (p.x, p.y, p.z) ∈ U → g 0 p + g 1 p + g 2 p = 0

/-- `f` is bounded in `U`, and tends to zero far away. -/
def Decays (U : Set (ℝ × ℝ × ℝ)) (f : V3 → ℝ) : Prop :=
  (∃ M, ∀ t ∈ U, |f (at3 t)| ≤ M) ∧ Tendsto (fun t => f (at3 t)) (cocompact (ℝ × ℝ × ℝ) ⊓ 𝓟 U) (𝓝 0)

/-- Coming from `U` in any way, `f` tends to `c` at the point `t`. -/
def BoundaryValue (U : Set (ℝ × ℝ × ℝ)) (f : V3 → ℝ) (t : ℝ × ℝ × ℝ) (c : ℝ) : Prop :=
  Tendsto (fun t => f (at3 t)) (𝓝[U] t) (𝓝 c)

/-- `f` solves the electrostatic problem above the plane: it obeys the Laplace equation, decays, and
has the value `V` on the plane, except on the segments `E`. -/
structure SolvesAbove (E : List (V2 × V2)) (V : ℝ × ℝ → ℝ) (f : V3 → ℝ) : Prop where
  harmonic : ObeysLaplace above f
  decays : Decays above f
  plane : ∀ q : ℝ × ℝ, (∀ e ∈ E, ¬ onSegment q e.1 e.2) → BoundaryValue above f (q.1, q.2, 0) (V q)

/-- `f` solves the electrostatic problem between the plane and a grounded cover at height `h`. -/
structure SolvesBetween (h : ℝ) (E : List (V2 × V2)) (V : ℝ × ℝ → ℝ) (f : V3 → ℝ) : Prop where
  harmonic : ObeysLaplace (slab h) f
  decays : Decays (slab h) f
  plane : ∀ q : ℝ × ℝ, (∀ e ∈ E, ¬ onSegment q e.1 e.2) → BoundaryValue (slab h) f (q.1, q.2, 0) (V q)
  cover : ∀ q : ℝ × ℝ, BoundaryValue (slab h) f (q.1, q.2, h) 0

/-- The edges of all closed paths of a polygon electrode. -/
def edgesOf (polys : List (List V2)) : List (V2 × V2) := polys.flatMap fun poly => List.zip poly (poly.rotate 1)

end Electrode.Spec
