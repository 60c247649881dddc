import Verif.Props.Trajectory
import Verif.Lemmas.SysSmooth
import Mathlib.Analysis.Calculus.MeanValue
import Mathlib.Analysis.Calculus.Deriv.Prod

/-
C144: what is conserved by motion with the acceleration that `trajectory` hands to its integrator.
-/
namespace Electrode

namespace Spec

/-- A motion with the acceleration `trajectory` uses: positions `x` with speeds `v`; the coordinates that are not among the axes
stay those of `x0`, the others have the second derivatives that the function for the integrator returns. -/
structure FollowsCode (s : List Elec) (x0 : List ℝ) (axis : List (Fin 3)) (x v : ℝ → Fin 3 → ℝ) : Prop where
  speed : ∀ t a, HasDerivAt (fun t => x t a) (v t a) t
  fixed : ∀ t a, a ∉ axis → x t a = x0.getD a 0
  acceleration : ∀ t, ∃ f, trajectoryDdx s x0 axis t (axis.map (x t)) = .ok f ∧
    ∀ (j : Nat) (hj : j < axis.length), HasDerivAt (fun t => v t axis[j]) (f.getD j 0) t

end Spec
open Spec

namespace TrajE

theorem accel {s : List Elec} {x0 : List ℝ} (hx0 : x0.length = 3) {axis : List (Fin 3)} (hnd : axis.Nodup) {x v : ℝ → Fin 3 → ℝ}
    (h : FollowsCode s x0 axis x v) (t : ℝ) (a : Fin 3) : ∃ b, HasDerivAt (fun t => v t a) b t ∧
      v t a * b = v t a * (electricalAt s .dc [a] ⟨x t 0, x t 1, x t 2⟩ + Real.cos t * electricalAt s .rf [a] ⟨x t 0, x t 1, x t 2⟩) := by
  by_cases ha : a ∈ axis
  · obtain ⟨f, hf, hv⟩ := h.acceleration t
    obtain ⟨y, y1, y2, y3⟩ := c74_acceleration_partial s x0 hx0 axis t _ f hf
    have hy : ∀ i, ![y.x, y.y, y.z] i = x t i := fun i => by
      by_cases hi : i ∈ axis
      · obtain ⟨j, hj, rfl⟩ := List.getElem_of_mem hi
        rw [y2 hnd j hj, List.getD_eq_getElem?_getD, List.getElem?_map, List.getElem?_eq_getElem hj]
        rfl
      · rw [y1 i hi, h.fixed t i hi]
    have ey : y = ⟨x t 0, x t 1, x t 2⟩ := by
      have e0 := hy 0
      have e1 := hy 1
      have e2 := hy 2
      obtain ⟨a, b, c⟩ := y
      simp only [V3.mk.injEq]
      exact ⟨e0, e1, e2⟩
    obtain ⟨j, hj, rfl⟩ := List.getElem_of_mem ha
    refine ⟨_, hv j hj, ?_⟩
    rw [y3, List.getD_eq_getElem?_getD, List.getElem?_map, List.getElem?_eq_getElem hj, ey]
    rfl
  · have hv : ∀ t, v t a = 0 := fun t => by
      have h1 := h.speed t a
      have h2 : (fun t => x t a) = fun _ => x0.getD a 0 := funext fun t => h.fixed t a ha
      rw [h2] at h1
      exact h1.unique (hasDerivAt_const t _)
    refine ⟨0, ?_, by rw [hv]; ring⟩
    have : (fun t => v t a) = fun _ => 0 := funext hv
    rw [this]
    exact hasDerivAt_const t _

theorem along {s : List Elec} (typ : VTyp) {x v : ℝ → Fin 3 → ℝ} (hs : ∀ t a, HasDerivAt (fun t => x t a) (v t a) t) (t : ℝ)
    (ho : offSystem s ⟨x t 0, x t 1, x t 2⟩) :
    HasDerivAt (fun t => sysTens s typ [] ⟨x t 0, x t 1, x t 2⟩) (∑ a, v t a * sysTens s typ [a] ⟨x t 0, x t 1, x t 2⟩) t :=
  line_deriv (sysTens_smooth s typ [] (by simp)) (fun a => sysTens s typ [a] ⟨x t 0, x t 1, x t 2⟩) (x t) ho
    (fun a => sys_step s typ [] a (by simp) _ ho) (v t) x t (hasDerivAt_pi.2 fun a => hs t a) rfl

theorem kinetic {s : List Elec} {x0 : List ℝ} (hx0 : x0.length = 3) {axis : List (Fin 3)} (hnd : axis.Nodup) {x v : ℝ → Fin 3 → ℝ}
    (h : FollowsCode s x0 axis x v) (t : ℝ) : HasDerivAt (fun t => (v t 0 ^ 2 + v t 1 ^ 2 + v t 2 ^ 2) / 2)
      (∑ a, v t a * (electricalAt s .dc [a] ⟨x t 0, x t 1, x t 2⟩ + Real.cos t * electricalAt s .rf [a] ⟨x t 0, x t 1, x t 2⟩)) t := by
  obtain ⟨b0, h0, e0⟩ := accel hx0 hnd h t 0
  obtain ⟨b1, h1, e1⟩ := accel hx0 hnd h t 1
  obtain ⟨b2, h2, e2⟩ := accel hx0 hnd h t 2
  refine ((((h0.pow 2).add (h1.pow 2)).add (h2.pow 2)).div_const 2).congr_deriv ?_
  rw [Fin.sum_univ_three, ← e0, ← e1, ← e2]
  simp
  ring

theorem const_of {E : ℝ → ℝ} (h : ∀ t, HasDerivAt E 0 t) (t t' : ℝ) : E t = E t' :=
  is_const_of_deriv_eq_zero (fun t => (h t).differentiableAt) (fun t => (h t).deriv) t t'

theorem rf_zero {s : List Elec} (hs : ∀ e ∈ s, e.rf = 0) (l : Idx) (p : V3) : sysTens s .rf l p = 0 := by
  rw [sysTens_eq]
  refine List.sum_eq_zero fun y hy => ?_
  obtain ⟨e, he, rfl⟩ := List.mem_map.1 hy
  rw [show e.voltD .rf = 0 from hs e he, zero_mul]

end TrajE
open TrajE

/-- **C144 (partial).** In a static potential, motion with the acceleration that `trajectory` uses conserves the kinetic energy *minus* the
potential.  Missing: the sign.  The energy of an ion is the kinetic energy plus the potential, see `c144_energy_counterexample`. -/
theorem c144_conserved_partial (s : List Elec) (hs : ∀ e ∈ s, e.rf = 0) (x0 : List ℝ) (hx0 : x0.length = 3) (axis : List (Fin 3))
    (hnd : axis.Nodup) (x v : ℝ → Fin 3 → ℝ) (h : FollowsCode s x0 axis x v) (hoff : ∀ t, offSystem s ⟨x t 0, x t 1, x t 2⟩) (t t' : ℝ) :
    (v t 0 ^ 2 + v t 1 ^ 2 + v t 2 ^ 2) / 2 - electricalAt s .dc [] ⟨x t 0, x t 1, x t 2⟩
      = (v t' 0 ^ 2 + v t' 1 ^ 2 + v t' 2 ^ 2) / 2 - electricalAt s .dc [] ⟨x t' 0, x t' 1, x t' 2⟩ := by
  have e : ∀ typ (l : Idx), l.length ≤ 1 → ∀ t, electricalAt s typ l ⟨x t 0, x t 1, x t 2⟩ = sysTens s typ l ⟨x t 0, x t 1, x t 2⟩ :=
    fun typ l hl t => electricalAt_eq s typ l (by omega) _ (avail_of_off (hoff t) _ _)
  rw [e _ _ (by simp), e _ _ (by simp)]
  refine const_of (E := fun t => (v t 0 ^ 2 + v t 1 ^ 2 + v t 2 ^ 2) / 2 - sysTens s .dc [] ⟨x t 0, x t 1, x t 2⟩) (fun t => ?_) t t'
  refine ((kinetic hx0 hnd h t).sub (along .dc h.speed t (hoff t))).congr_deriv ?_
  rw [← Finset.sum_sub_distrib]
  refine Finset.sum_eq_zero fun a _ => ?_
  rw [e _ _ (by simp), e _ _ (by simp), rf_zero hs]
  ring

/-- **C144 (partial).** With an rf drive the same quantity, for the potential at the instant, changes only because the voltages do: its
rate is the rate of the drive times the rf potential. -/
theorem c144_driven_partial (s : List Elec) (x0 : List ℝ) (hx0 : x0.length = 3) (axis : List (Fin 3))
    (hnd : axis.Nodup) (x v : ℝ → Fin 3 → ℝ) (h : FollowsCode s x0 axis x v) (hoff : ∀ t, offSystem s ⟨x t 0, x t 1, x t 2⟩) (t : ℝ) :
    HasDerivAt (fun t => (v t 0 ^ 2 + v t 1 ^ 2 + v t 2 ^ 2) / 2
        - (electricalAt s .dc [] ⟨x t 0, x t 1, x t 2⟩ + Real.cos t * electricalAt s .rf [] ⟨x t 0, x t 1, x t 2⟩))
      (Real.sin t * electricalAt s .rf [] ⟨x t 0, x t 1, x t 2⟩) t := by
  have e : ∀ typ (l : Idx), l.length ≤ 1 → ∀ t, electricalAt s typ l ⟨x t 0, x t 1, x t 2⟩ = sysTens s typ l ⟨x t 0, x t 1, x t 2⟩ :=
    fun typ l hl t => electricalAt_eq s typ l (by omega) _ (avail_of_off (hoff t) _ _)
  simp only [e _ [] (by simp)]
  refine ((kinetic hx0 hnd h t).sub ((along .dc h.speed t (hoff t)).add
    ((Real.hasDerivAt_cos t).mul (along .rf h.speed t (hoff t))))).congr_deriv ?_
  simp only [e _ _ (show [_].length ≤ 1 by simp), Fin.sum_univ_three]
  ring

/-- **C144 does not hold**: between a plane at zero and a plane at one volt, an ion at rest that moves with the acceleration `trajectory` uses
gains speed and potential together. -/
theorem c144_energy_counterexample : ∃ (s : List Elec) (x v : ℝ → Fin 3 → ℝ), (∀ e ∈ s, e.rf = 0) ∧ FollowsCode s [0, 0, 1] [0, 1, 2] x v ∧
    (∀ t, offSystem s ⟨x t 0, x t 1, x t 2⟩) ∧ v 0 = 0 ∧
    (v 0 0 ^ 2 + v 0 1 ^ 2 + v 0 2 ^ 2) / 2 + electricalAt s .dc [] ⟨x 0 0, x 0 1, x 0 2⟩
      < (v 1 0 ^ 2 + v 1 1 ^ 2 + v 1 2 ^ 2) / 2 + electricalAt s .dc [] ⟨x 1 0, x 1 1, x 1 2⟩ := by
  have hoff : ∀ p, offSystem [⟨"a", 1, 0, .cover 2⟩] p := fun p e he => by
    rw [List.mem_singleton] at he; subst he; trivial
  have hav : ∀ d typ, AvailAll [⟨"a", 1, 0, .cover 2⟩] d typ := fun d typ => avail_of_off (hoff ⟨0, 0, 0⟩) d typ
  have hg : ∀ p (a : Fin 3), electricalAt [⟨"a", 1, 0, .cover 2⟩] .dc [a] p = if a = 2 then 1 / 2 else 0 := fun p a => by
    rw [electricalAt_eq _ _ [a] (by simp) _ (hav _ _), sysTens_eq]
    fin_cases a <;> simp [tens, entrySel, selVal, Shape.contrib, coverContrib, Elec.voltD, Elec.volt] <;> rfl
  have h0 : ∀ p, electricalAt [⟨"a", 1, 0, .cover 2⟩] .dc [] p = p.z / 2 := fun p => by
    rw [electricalAt_eq _ _ [] (by simp) _ (hav _ _), sysTens_eq]
    have hsel : entrySel 0 [] = .one 0 := by decide
    simp [tens, hsel, selVal, Shape.contrib, coverContrib, Elec.voltD, Elec.volt]
  have hr : ∀ e ∈ [(⟨"a", 1, 0, .cover 2⟩ : Elec)], e.rf = 0 := fun e he => by rw [List.mem_singleton] at he; subst he; rfl
  refine ⟨[⟨"a", 1, 0, .cover 2⟩], fun t => ![0, 0, 1 + t ^ 2 / 4], fun t => ![0, 0, t / 2], hr, ⟨fun t a => ?_, fun t a ha => ?_, fun t => ?_⟩,
    fun t => hoff _, ?_, ?_⟩
  · fin_cases a
    · exact hasDerivAt_const t _
    · exact hasDerivAt_const t _
    · have := (((hasDerivAt_id t).pow 2).div_const 4).const_add 1
      refine this.congr_deriv ?_
      simp
      ring
  · exact absurd (by fin_cases a <;> simp) ha
  · obtain ⟨f, hf⟩ := ddx_ok [⟨"a", 1, 0, .cover 2⟩] [0, 0, 1] [0, 1, 2] t ([0, 1, 2].map ![0, 0, 1 + t ^ 2 / 4]) (by simp) (hav _ _) (hav _ _)
    obtain ⟨y, -, -, h3⟩ := c74_acceleration_partial _ _ rfl _ _ _ f hf
    refine ⟨f, hf, fun j hj => ?_⟩
    have hrf : ∀ a, electricalAt [⟨"a", 1, 0, .cover 2⟩] .rf [a] y = 0 := fun a => by
      rw [electricalAt_eq _ _ [a] (by simp) _ (hav _ _), rf_zero hr]
    rw [h3]
    simp only [hg, hrf]
    obtain rfl | rfl | rfl : j = 0 ∨ j = 1 ∨ j = 2 := by simp at hj; omega
    · simpa using hasDerivAt_const t (0 : ℝ)
    · simpa using hasDerivAt_const t (0 : ℝ)
    · simpa using (hasDerivAt_id t).div_const 2
  · funext a; fin_cases a <;> simp
  · rw [h0, h0]
    have e2 : ∀ a b c : ℝ, ![a, b, c] 2 = c := fun _ _ _ => rfl
    simp only [e2]
    norm_num

/-- `c144_energy_counterexample` meets the hypotheses of the theorems above -/
example : ∃ (s : List Elec) (x v : ℝ → Fin 3 → ℝ), (∀ e ∈ s, e.rf = 0) ∧ FollowsCode s [0, 0, 1] [0, 1, 2] x v ∧ [(0 : Fin 3), 1, 2].Nodup ∧
    ∀ t, offSystem s ⟨x t 0, x t 1, x t 2⟩ := by
  obtain ⟨s, x, v, h1, h2, h3, -⟩ := c144_energy_counterexample
  exact ⟨s, x, v, h1, h2, by decide, h3⟩

end Electrode
