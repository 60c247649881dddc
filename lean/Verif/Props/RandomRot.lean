import Verif.Model.Vectors
import Verif.Lemmas.SphereLaw
import Verif.Props.QuatFrom

/-
C110: random quaternions and rotation matrices are evenly distributed.
-/
namespace Electrode

open MeasureTheory Set Matrix
open scoped ENNReal Real

/-! ### specification -/

/-- three independent numbers that are uniformly distributed between 0 and 1 -/
noncomputable def Spec.unitCube : Measure (Fin 3 → ℝ) := Measure.pi fun _ => volume.restrict (Ico (0 : ℝ) 1)

/-- matrices with the usual measurable sets -/
instance : MeasurableSpace (Matrix (Fin 3) (Fin 3) ℝ) := inferInstanceAs (MeasurableSpace (Fin 3 → Fin 3 → ℝ))

/-- the uniform distribution of rotations: all are rotations, and the distribution stays the same if each is followed by a given
rotation. -/
def Spec.UniformRotation (μ : Measure (Matrix (Fin 3) (Fin 3) ℝ)) : Prop :=
  IsProbabilityMeasure μ ∧ (∀ᵐ M ∂μ, Spec.IsRotation M) ∧ ∀ R, Spec.IsRotation R → μ.map (fun M => R * M) = μ

open Spec

/-! ### quaternions -/

/-- C110: `random_quaternion` gives unit quaternions. -/
theorem c110_unit {rand : Fin 3 → ℝ} (h0 : 0 ≤ rand 0) (h1 : rand 0 ≤ 1) : quatDot (randomQuat rand) = 1 := by
  rw [quatDot_eq]
  simp only [randomQuat, cons_val_zero, cons_val_one, cons_val]
  have e1 := Real.mul_self_sqrt (show 0 ≤ 1 - rand 0 by linarith)
  have e2 := Real.mul_self_sqrt h0
  linear_combination Real.cos (π * 2 * rand 1) ^ 2 * e1 + Real.sin (π * 2 * rand 1) ^ 2 * e1 + Real.cos (π * 2 * rand 2) ^ 2 * e2 +
    Real.sin (π * 2 * rand 2) ^ 2 * e2 + (1 - rand 0) * Real.sin_sq_add_cos_sq (π * 2 * rand 1) +
    rand 0 * Real.sin_sq_add_cos_sq (π * 2 * rand 2)

/-- pairs of planes as quaternions -/
def planesQuat : ((ℝ × ℝ) × (ℝ × ℝ)) ≃ₗ[ℝ] Quat where
  toFun p := ![p.1.1, p.2.2, p.2.1, p.1.2]
  invFun q := ((q 0, q 3), (q 2, q 1))
  map_add' p q := by
    ext i
    fin_cases i <;> simp
  map_smul' c p := by
    ext i
    fin_cases i <;> simp
  left_inv p := by simp
  right_inv q := by
    ext i
    fin_cases i <;> simp

theorem planesQuat_measurable : Measurable planesQuat := by
  refine measurable_pi_lambda _ fun i => ?_
  fin_cases i <;> simp [planesQuat] <;> fun_prop

theorem lint_cube {g : (Fin 3 → ℝ) → ℝ≥0∞} (hg : Measurable g) :
    ∫⁻ u, g u ∂unitCube = ∫⁻ u in Ico (0 : ℝ) 1, ∫⁻ w in Ico (0 : ℝ) 1, ∫⁻ v in Ico (0 : ℝ) 1, g ![u, v, w] := by
  obtain ⟨ν, hν⟩ : ∃ ν : Measure ℝ, ν = volume.restrict (Ico (0 : ℝ) 1) := ⟨_, rfl⟩
  haveI : IsProbabilityMeasure ν := ⟨by rw [hν]; simp⟩
  have h1 := measurePreserving_piFinSuccAbove (fun _ : Fin 3 => ν) 0
  have h2 := measurePreserving_finTwoArrow ν
  unfold unitCube
  rw [← hν]
  have e1 : ∫⁻ u, g u ∂(Measure.pi fun _ : Fin 3 => ν) = ∫⁻ p : ℝ × (Fin 2 → ℝ), g ![p.1, p.2 0, p.2 1] ∂(ν.prod (Measure.pi fun _ : Fin 2 => ν)) := by
    rw [← h1.lintegral_comp_emb (MeasurableEquiv.measurableEmbedding _)]
    refine lintegral_congr fun u => ?_
    congr 1
    ext i
    fin_cases i <;> rfl
  rw [e1, lintegral_prod _ (Measurable.aemeasurable (by
    refine hg.comp (measurable_pi_lambda _ fun i => ?_)
    fin_cases i <;> simp <;> fun_prop))]
  refine lintegral_congr fun u => ?_
  have e2 : ∫⁻ p : Fin 2 → ℝ, g ![u, p 0, p 1] ∂(Measure.pi fun _ : Fin 2 => ν) = ∫⁻ p : ℝ × ℝ, g ![u, p.1, p.2] ∂(ν.prod ν) := by
    rw [← h2.lintegral_comp_emb (MeasurableEquiv.measurableEmbedding _)]
    refine lintegral_congr fun u => ?_
    rfl
  have m2 : Measurable fun p : ℝ × ℝ => g ![u, p.1, p.2] := by
    refine hg.comp (measurable_pi_lambda _ fun i => ?_)
    fin_cases i <;> simp <;> fun_prop
  rw [e2, lintegral_prod_symm _ m2.aemeasurable]

theorem randomQuat_measurable : Measurable randomQuat := by
  refine measurable_pi_lambda _ fun i => ?_
  fin_cases i <;> simp [randomQuat] <;> fun_prop

/-- the mean of a function of a random quaternion is the mean over the directions of the unit ball -/
theorem lint_random {f : Quat → ℝ≥0∞} (hf : Measurable f) :
    ENNReal.ofReal (π ^ 2 / 2) * ∫⁻ u, f (randomQuat u) ∂unitCube =
      ∫⁻ p : (ℝ × ℝ) × (ℝ × ℝ), if quatDot (planesQuat p) < 1 then f ((√(quatDot (planesQuat p)))⁻¹ • planesQuat p) else 0 := by
  rw [lint_cube (g := fun u => f (randomQuat u)) (hf.comp randomQuat_measurable)]
  have h := lint_ball (G := fun p => f (planesQuat p)) (hf.comp planesQuat_measurable)
  have e : ∀ p : (ℝ × ℝ) × (ℝ × ℝ), p.1.1 ^ 2 + p.1.2 ^ 2 + (p.2.1 ^ 2 + p.2.2 ^ 2) = quatDot (planesQuat p) := by
    intro p
    rw [quatDot_eq]
    simp [planesQuat]
    ring
  simp only [e, map_smul] at h
  rw [h]
  congr 1
  refine lintegral_congr fun u => lintegral_congr fun w => lintegral_congr fun v => ?_
  congr 1
  ext i
  fin_cases i <;> simp [randomQuat, planesQuat, mul_comm]

theorem quatDot_orth {A : Matrix (Fin 4) (Fin 4) ℝ} (hA : A * Aᵀ = 1) (q : Quat) : quatDot (A *ᵥ q) = quatDot q := by
  have hA' : Aᵀ * A = 1 := mul_eq_one_comm.1 hA
  have : ∀ q : Quat, quatDot q = q ⬝ᵥ q := fun q => rfl
  rw [this, this, dotProduct_mulVec, vecMul_mulVec, hA', vecMul_one]

/-- C110: the distribution of `random_quaternion` is uniform: it does not change under any rotation or reflection in four dimensions. -/
theorem c110_uniform {A : Matrix (Fin 4) (Fin 4) ℝ} (hA : A * Aᵀ = 1) :
    (unitCube.map randomQuat).map (fun q => A *ᵥ q) = unitCube.map randomQuat := by
  have hAm : Measurable fun q : Quat => A *ᵥ q := (Continuous.matrix_mulVec continuous_const continuous_id).measurable
  refine Measure.ext_of_lintegral _ fun f hf => ?_
  rw [lintegral_map hf hAm, lintegral_map (f := fun q => f (A *ᵥ q)) (hf.comp hAm) randomQuat_measurable, lintegral_map hf randomQuat_measurable]
  have hc0 : ENNReal.ofReal (π ^ 2 / 2) ≠ 0 := by
    have : 0 < π ^ 2 / 2 := by positivity
    simpa using this
  rw [← (ENNReal.mul_right_inj hc0 ENNReal.ofReal_ne_top), lint_random (f := fun q => f (A *ᵥ q)) (hf.comp hAm), lint_random hf]
  obtain ⟨L, hL⟩ : ∃ L : ((ℝ × ℝ) × (ℝ × ℝ)) →ₗ[ℝ] ((ℝ × ℝ) × (ℝ × ℝ)),
    L = (planesQuat.symm : Quat →ₗ[ℝ] _) ∘ₗ Matrix.toLin' A ∘ₗ (planesQuat.symm.symm : _ →ₗ[ℝ] Quat) := ⟨_, rfl⟩
  have hdet : LinearMap.det L = A.det := by
    rw [hL, LinearMap.det_conj, LinearMap.det_toLin']
  have hd : A.det * A.det = 1 := by
    have := congrArg Matrix.det hA
    rwa [det_mul, det_transpose, det_one] at this
  have habs : |(A.det)⁻¹| = 1 := by
    rw [abs_inv]
    have : |A.det| * |A.det| = 1 := by rw [← abs_mul, hd, abs_one]
    have h0 := abs_nonneg A.det
    have : |A.det| = 1 := by nlinarith
    rw [this, inv_one]
  haveI : (volume : Measure (ℝ × ℝ)).IsAddHaarMeasure := inferInstanceAs ((volume : Measure ℝ).prod (volume : Measure ℝ)).IsAddHaarMeasure
  haveI : (volume : Measure ((ℝ × ℝ) × (ℝ × ℝ))).IsAddHaarMeasure :=
    inferInstanceAs ((volume : Measure (ℝ × ℝ)).prod (volume : Measure (ℝ × ℝ))).IsAddHaarMeasure
  have hmap : (volume : Measure ((ℝ × ℝ) × (ℝ × ℝ))).map L = volume := by
    rw [Measure.map_linearMap_addHaar_eq_smul_addHaar (μ := (volume : Measure ((ℝ × ℝ) × (ℝ × ℝ)))) (f := L), hdet, habs]
    · simp
    · rw [hdet]
      intro h
      rw [h] at hd
      simp at hd
  have hLq : ∀ p, planesQuat (L p) = A *ᵥ planesQuat p := by
    intro p
    rw [hL]
    simp
  have hm : Measurable fun p : (ℝ × ℝ) × (ℝ × ℝ) => if quatDot (planesQuat p) < 1 then f ((√(quatDot (planesQuat p)))⁻¹ • planesQuat p) else 0 := by
    have hq : Measurable fun p => quatDot (planesQuat p) := by
      unfold quatDot
      have := planesQuat_measurable
      fun_prop
    refine Measurable.ite (measurableSet_lt hq measurable_const) ?_ measurable_const
    exact hf.comp (Measurable.smul (Measurable.inv (hq.sqrt)) planesQuat_measurable)
  have hLm : Measurable L := (LinearMap.continuous_of_finiteDimensional L).measurable
  conv_rhs => rw [← hmap]
  rw [lintegral_map hm hLm]
  refine lintegral_congr fun p => ?_
  rw [hLq, quatDot_orth hA, mulVec_smul]

/-! ### rotations -/

theorem cube_prob : IsProbabilityMeasure unitCube := by
  haveI : IsProbabilityMeasure ((volume : Measure ℝ).restrict (Ico (0 : ℝ) 1)) := ⟨by simp⟩
  unfold unitCube
  infer_instance

theorem cube_ae : ∀ᵐ u ∂unitCube, ∀ i, u i ∈ Ico (0 : ℝ) 1 := by
  haveI : IsProbabilityMeasure ((volume : Measure ℝ).restrict (Ico (0 : ℝ) 1)) := ⟨by simp⟩
  rw [ae_all_iff]
  intro i
  have h : ∀ᵐ x ∂((volume : Measure ℝ).restrict (Ico (0 : ℝ) 1)), x ∈ Ico (0 : ℝ) 1 := ae_restrict_mem measurableSet_Ico
  exact (Measure.quasiMeasurePreserving_eval (fun _ : Fin 3 => (volume : Measure ℝ).restrict (Ico (0 : ℝ) 1)) i).ae h

theorem upper_homog_eq (R : Matrix (Fin 3) (Fin 3) ℝ) : upper (homog R) = R := by
  ext a b
  exact (homog_spec R).1 a b

/-- C110: `random_rotation_matrix` gives a rotation for all numbers. -/
theorem c110_rotation (rand : Fin 3 → ℝ) :
    Homog (randomRotation rand) (upper (randomRotation rand)) ∧ IsRotation (upper (randomRotation rand)) := by
  obtain ⟨R, hM, hR⟩ := c68_rotation (randomQuat rand)
  have e : upper (randomRotation rand) = R := by
    ext a b
    exact hM.1 a b
  rw [e]
  exact ⟨hM, hR⟩

theorem homMat_measurable : Measurable homMat := by
  refine measurable_pi_lambda _ fun i => measurable_pi_lambda _ fun j => ?_
  fin_cases i <;> fin_cases j <;> simp [homMat] <;> fun_prop

theorem random_homMat {u : Fin 3 → ℝ} (h0 : 0 ≤ u 0) (h1 : u 0 ≤ 1) : upper (randomRotation u) = homMat (randomQuat u) := by
  rw [randomRotation, quatMatrix_unit _ (c110_unit h0 h1), upper_homog_eq]

theorem random_law : unitCube.map (fun u => upper (randomRotation u)) = (unitCube.map randomQuat).map homMat := by
  rw [Measure.map_map homMat_measurable randomQuat_measurable]
  refine Measure.map_congr ?_
  filter_upwards [cube_ae] with u hu
  exact random_homMat (hu 0).1 (hu 0).2.le

theorem random_aem : AEMeasurable (fun u => upper (randomRotation u)) unitCube := by
  refine ⟨fun u => homMat (randomQuat u), homMat_measurable.comp randomQuat_measurable, ?_⟩
  filter_upwards [cube_ae] with u hu
  exact random_homMat (hu 0).1 (hu 0).2.le

/-- multiplication by a quaternion from the left -/
def leftQ (p : Quat) : Matrix (Fin 4) (Fin 4) ℝ :=
  !![p 0, -p 1, -p 2, -p 3; p 1, p 0, -p 3, p 2; p 2, p 3, p 0, -p 1; p 3, -p 2, p 1, p 0]

/-- multiplication by a quaternion from the right -/
def rightQ (p : Quat) : Matrix (Fin 4) (Fin 4) ℝ :=
  !![p 0, -p 1, -p 2, -p 3; p 1, p 0, p 3, -p 2; p 2, -p 3, p 0, p 1; p 3, p 2, -p 1, p 0]

theorem leftQ_mul (p q : Quat) : leftQ p *ᵥ q = quatMul p q := by
  ext i
  fin_cases i <;> simp [leftQ, quatMul, mulVec, dotProduct, Fin.sum_univ_four] <;> ring

theorem rightQ_mul (p q : Quat) : rightQ p *ᵥ q = quatMul q p := by
  ext i
  fin_cases i <;> simp [rightQ, quatMul, mulVec, dotProduct, Fin.sum_univ_four] <;> ring

theorem leftQ_orth {p : Quat} (h : quatDot p = 1) : leftQ p * (leftQ p)ᵀ = 1 := by
  rw [quatDot_eq] at h
  ext i j
  fin_cases i <;> fin_cases j <;> simp [leftQ, Matrix.mul_apply, Fin.sum_univ_four] <;> first | ring1 | linear_combination h

theorem rightQ_orth {p : Quat} (h : quatDot p = 1) : rightQ p * (rightQ p)ᵀ = 1 := by
  rw [quatDot_eq] at h
  ext i j
  fin_cases i <;> fin_cases j <;> simp [rightQ, Matrix.mul_apply, Fin.sum_univ_four] <;> first | ring1 | linear_combination h

theorem rotation_quat {R : Matrix (Fin 3) (Fin 3) ℝ} (h : IsRotation R) : ∃ p, quatDot p = 1 ∧ homMat p = R := by
  obtain ⟨h1, h2, -⟩ := c83_precise (homog R) R (homog_spec R) h
  refine ⟨_, h1, ?_⟩
  rw [quatMatrix_unit _ h1] at h2
  rw [← upper_homog_eq (homMat _), h2, upper_homog_eq]

theorem mul_left_measurable (R : Matrix (Fin 3) (Fin 3) ℝ) : Measurable fun M : Matrix (Fin 3) (Fin 3) ℝ => R * M := by
  refine measurable_pi_lambda _ fun i => measurable_pi_lambda _ fun j => ?_
  simp only [Matrix.mul_apply]
  refine Finset.measurable_sum _ fun k _ => measurable_const.mul ?_
  exact (measurable_pi_apply j).comp (measurable_pi_apply k)

theorem mul_right_measurable (R : Matrix (Fin 3) (Fin 3) ℝ) : Measurable fun M : Matrix (Fin 3) (Fin 3) ℝ => M * R := by
  refine measurable_pi_lambda _ fun i => measurable_pi_lambda _ fun j => ?_
  simp only [Matrix.mul_apply]
  refine Finset.measurable_sum _ fun k _ => Measurable.mul_const ?_ _
  exact (measurable_pi_apply k).comp (measurable_pi_apply i)

theorem mul_measurable : Measurable fun p : Matrix (Fin 3) (Fin 3) ℝ × Matrix (Fin 3) (Fin 3) ℝ => p.1 * p.2 := by
  refine measurable_pi_lambda _ fun i => measurable_pi_lambda _ fun j => ?_
  simp only [Matrix.mul_apply]
  refine Finset.measurable_sum _ fun k _ => ?_
  have h1 : Measurable fun p : Matrix (Fin 3) (Fin 3) ℝ × Matrix (Fin 3) (Fin 3) ℝ => p.1 i k :=
    (measurable_pi_apply k).comp ((measurable_pi_apply i).comp measurable_fst)
  have h2 : Measurable fun p : Matrix (Fin 3) (Fin 3) ℝ × Matrix (Fin 3) (Fin 3) ℝ => p.2 k j :=
    (measurable_pi_apply j).comp ((measurable_pi_apply k).comp measurable_snd)
  exact h1.mul h2

theorem entry_measurable (i j : Fin 3) : Measurable fun M : Matrix (Fin 3) (Fin 3) ℝ => M i j :=
  (measurable_pi_apply j).comp (measurable_pi_apply i)

theorem rotation_measurable : MeasurableSet {M : Matrix (Fin 3) (Fin 3) ℝ | IsRotation M} := by
  have e : {M : Matrix (Fin 3) (Fin 3) ℝ | IsRotation M} =
      (⋂ i, ⋂ j, {M | ∑ k, M i k * M j k = (1 : Matrix (Fin 3) (Fin 3) ℝ) i j}) ∩ {M | M.det = 1} := by
    ext M
    simp only [mem_setOf_eq, mem_inter_iff, mem_iInter, IsRotation]
    refine and_congr ⟨fun h i j => ?_, fun h => ?_⟩ Iff.rfl
    · rw [← h, Matrix.mul_apply]
      rfl
    · ext i j
      rw [← h i j, Matrix.mul_apply]
      rfl
  rw [e]
  refine MeasurableSet.inter (MeasurableSet.iInter fun i => MeasurableSet.iInter fun j => ?_) ?_
  · refine measurableSet_eq_fun (Finset.measurable_sum _ fun k _ => ?_) measurable_const
    exact (entry_measurable i k).mul (entry_measurable j k)
  · refine measurableSet_eq_fun ?_ measurable_const
    have h := entry_measurable
    have e : (fun M : Matrix (Fin 3) (Fin 3) ℝ => M.det) = fun M => M 0 0 * M 1 1 * M 2 2 - M 0 0 * M 1 2 * M 2 1 - M 0 1 * M 1 0 * M 2 2 +
        M 0 1 * M 1 2 * M 2 0 + M 0 2 * M 1 0 * M 2 1 - M 0 2 * M 1 1 * M 2 0 := by
      funext M
      exact Matrix.det_fin_three M
    refine (show Measurable fun M : Matrix (Fin 3) (Fin 3) ℝ => M.det from ?_)
    rw [e]
    exact ((((((h 0 0).mul (h 1 1)).mul (h 2 2)).sub (((h 0 0).mul (h 1 2)).mul (h 2 1))).sub (((h 0 1).mul (h 1 0)).mul (h 2 2))).add
      (((h 0 1).mul (h 1 2)).mul (h 2 0))).add (((h 0 2).mul (h 1 0)).mul (h 2 1)) |>.sub (((h 0 2).mul (h 1 1)).mul (h 2 0))

theorem mulVec_measurable (A : Matrix (Fin 4) (Fin 4) ℝ) : Measurable fun q : Quat => A *ᵥ q :=
  (Continuous.matrix_mulVec continuous_const continuous_id).measurable

/-- C110: the distribution of `random_rotation_matrix` is the uniform one: it does not change if each is followed, or preceded, by a
given rotation. -/
theorem c110_matrix :
    UniformRotation (unitCube.map fun u => upper (randomRotation u)) ∧
      ∀ R, IsRotation R →
        (unitCube.map fun u => upper (randomRotation u)).map (fun M => M * R) = unitCube.map fun u => upper (randomRotation u) := by
  have := cube_prob
  refine ⟨⟨Measure.isProbabilityMeasure_map random_aem, ?_, ?_⟩, ?_⟩
  · exact (ae_map_iff random_aem rotation_measurable).2 (Filter.Eventually.of_forall fun u => (c110_rotation u).2)
  · intro R hR
    obtain ⟨p, hp, rfl⟩ := rotation_quat hR
    rw [random_law, Measure.map_map (mul_left_measurable _) homMat_measurable]
    conv_rhs => rw [← c110_uniform (leftQ_orth hp)]
    rw [Measure.map_map homMat_measurable (mulVec_measurable _)]
    congr 1
    funext q
    simp only [Function.comp_apply, leftQ_mul, homMat_mul]
  · intro R hR
    obtain ⟨p, hp, rfl⟩ := rotation_quat hR
    rw [random_law, Measure.map_map (mul_right_measurable _) homMat_measurable]
    conv_rhs => rw [← c110_uniform (rightQ_orth hp)]
    rw [Measure.map_map homMat_measurable (mulVec_measurable _)]
    congr 1
    funext q
    simp only [Function.comp_apply, rightQ_mul, homMat_mul]

/-- C110: there is only one uniform distribution of rotations. -/
theorem c110_only {μ : Measure (Matrix (Fin 3) (Fin 3) ℝ)} (h : UniformRotation μ) :
    μ = unitCube.map fun u => upper (randomRotation u) := by
  obtain ⟨⟨hp, hr, -⟩, hright⟩ := c110_matrix
  set ν := unitCube.map fun u => upper (randomRotation u) with hν
  obtain ⟨hp', hr', hleft⟩ := h
  refine Measure.ext_of_lintegral _ fun f hf => ?_
  have h1 : ∫⁻ M, f M ∂μ = ∫⁻ R, ∫⁻ M, f (R * M) ∂μ ∂ν := by
    have : ∀ᵐ R ∂ν, ∫⁻ M, f (R * M) ∂μ = ∫⁻ M, f M ∂μ := by
      filter_upwards [hr] with R hR
      rw [← lintegral_map hf (mul_left_measurable R), hleft R hR]
    rw [lintegral_congr_ae this]
    simp
  have h2 : ∫⁻ R, f R ∂ν = ∫⁻ M, ∫⁻ R, f (R * M) ∂ν ∂μ := by
    have : ∀ᵐ M ∂μ, ∫⁻ R, f (R * M) ∂ν = ∫⁻ R, f R ∂ν := by
      filter_upwards [hr'] with M hM
      rw [← lintegral_map hf (mul_right_measurable M), hright M hM]
    rw [lintegral_congr_ae this]
    simp
  rw [h1, h2]
  exact lintegral_lintegral_swap (hf.comp mul_measurable).aemeasurable

/-! ### components -/

/-- some rotation turns the third axis to a given direction -/
theorem rotation_to {v : Fin 3 → ℝ} (h : v ⬝ᵥ v = 1) : ∃ R, IsRotation R ∧ R *ᵥ ![0, 0, 1] = v := by
  have h3 : v 0 * v 0 + v 1 * v 1 + v 2 * v 2 = 1 := by
    simpa [dotProduct, Fin.sum_univ_three] using h
  rcases eq_or_ne (v 0 * v 0 + v 1 * v 1) 0 with h0 | h0
  · have a : v 0 = 0 := by nlinarith [mul_self_nonneg (v 0), mul_self_nonneg (v 1)]
    have b : v 1 = 0 := by nlinarith [mul_self_nonneg (v 0), mul_self_nonneg (v 1)]
    have c : v 2 * v 2 = 1 := by linarith
    refine ⟨!![1, 0, 0; 0, v 2, 0; 0, 0, v 2], ⟨?_, ?_⟩, ?_⟩
    · ext i j
      fin_cases i <;> fin_cases j <;> simp [Matrix.mul_apply, Fin.sum_univ_three, c]
    · simp [Matrix.det_fin_three, c]
    · ext i
      fin_cases i <;> simp [mulVec, dotProduct, Fin.sum_univ_three, a, b]
  · have hp : 0 < v 0 * v 0 + v 1 * v 1 := lt_of_le_of_ne (add_nonneg (mul_self_nonneg _) (mul_self_nonneg _)) h0.symm
    obtain ⟨ρ, hρ, e⟩ : ∃ ρ, 0 < ρ ∧ ρ * ρ = v 0 * v 0 + v 1 * v 1 := ⟨_, Real.sqrt_pos.2 hp, Real.mul_self_sqrt hp.le⟩
    have hne := hρ.ne'
    obtain ⟨c, s, hc, hs, hcs⟩ : ∃ c s, v 0 = ρ * c ∧ v 1 = ρ * s ∧ c * c + s * s = 1 := by
      refine ⟨v 0 / ρ, v 1 / ρ, by field_simp, by field_simp, ?_⟩
      field_simp
      nlinarith
    have hz : ρ * ρ + v 2 * v 2 = 1 := by linarith
    obtain ⟨z, rfl⟩ : ∃ z, z = v 2 := ⟨_, rfl⟩
    refine ⟨!![c * v 2, -s, ρ * c; s * v 2, c, ρ * s; -ρ, 0, v 2], ⟨?_, ?_⟩, ?_⟩
    · ext i j
      fin_cases i <;> fin_cases j <;> simp [Matrix.mul_apply, Fin.sum_univ_three]
      · linear_combination hcs + c * c * hz
      · linear_combination c * s * hz
      · ring
      · linear_combination c * s * hz
      · linear_combination hcs + s * s * hz
      · ring
      · ring
      · ring
      · linear_combination hz
    · simp [Matrix.det_fin_three]
      linear_combination hcs * (v 2 * v 2 + ρ * ρ) + hz
    · ext i
      fin_cases i <;> simp [mulVec, dotProduct, Fin.sum_univ_three, hc, hs]

theorem random_corner {u : Fin 3 → ℝ} (h0 : 0 ≤ u 0) (h1 : u 0 ≤ 1) : homMat (randomQuat u) 2 2 = 2 * u 0 - 1 := by
  simp only [homMat, randomQuat, cons_val_zero, cons_val_one, cons_val, of_apply]
  have e1 := Real.mul_self_sqrt (show 0 ≤ 1 - u 0 by linarith)
  have e2 := Real.mul_self_sqrt h0
  linear_combination Real.cos (π * 2 * u 2) ^ 2 * e2 + Real.sin (π * 2 * u 2) ^ 2 * e2 + u 0 * Real.sin_sq_add_cos_sq (π * 2 * u 2) -
    Real.cos (π * 2 * u 1) ^ 2 * e1 - Real.sin (π * 2 * u 1) ^ 2 * e1 - (1 - u 0) * Real.sin_sq_add_cos_sq (π * 2 * u 1)

/-- C110: the component along any direction of a randomly rotated unit vector is uniformly distributed between -1 and 1. -/
theorem c110_component {v w : Fin 3 → ℝ} (hv : v ⬝ᵥ v = 1) (hw : w ⬝ᵥ w = 1) {s : Set ℝ} (hs : MeasurableSet s) :
    unitCube {u | w ⬝ᵥ (upper (randomRotation u) *ᵥ v) ∈ s} = volume (s ∩ Ico (-1) 1) / 2 := by
  obtain ⟨R, hR, rfl⟩ := rotation_to hv
  obtain ⟨S, hS, rfl⟩ := rotation_to hw
  obtain ⟨⟨hp, hr, hleft⟩, hright⟩ := c110_matrix
  have hS' : IsRotation Sᵀ := ⟨by rw [transpose_transpose]; exact mul_eq_one_comm.1 hS.1, by rw [det_transpose]; exact hS.2⟩
  have e : ∀ M : Matrix (Fin 3) (Fin 3) ℝ, (S *ᵥ ![0, 0, 1]) ⬝ᵥ (M *ᵥ (R *ᵥ ![0, 0, 1])) = (Sᵀ * M * R) 2 2 := by
    intro M
    have h1 : (S *ᵥ ![0, 0, 1]) ⬝ᵥ (M *ᵥ (R *ᵥ ![0, 0, 1])) = ![0, 0, 1] ⬝ᵥ ((Sᵀ * M * R) *ᵥ ![0, 0, 1]) := by
      rw [← mulVec_mulVec, ← mulVec_mulVec, dotProduct_mulVec _ Sᵀ, vecMul_transpose]
    rw [h1]
    simp [mulVec, dotProduct, Fin.sum_univ_three]
  have hT : MeasurableSet {M : Matrix (Fin 3) (Fin 3) ℝ | M 2 2 ∈ s} := entry_measurable 2 2 hs
  have hm := (mul_right_measurable R).comp (mul_left_measurable Sᵀ)
  have l1 : unitCube {u | (S *ᵥ ![0, 0, 1]) ⬝ᵥ (upper (randomRotation u) *ᵥ (R *ᵥ ![0, 0, 1])) ∈ s} =
      unitCube {u | upper (randomRotation u) 2 2 ∈ s} := by
    have a1 := Measure.map_apply_of_aemeasurable random_aem (hm hT)
    have a2 := Measure.map_apply_of_aemeasurable random_aem hT
    have a3 : (unitCube.map fun u => upper (randomRotation u)) (((fun M => M * R) ∘ fun M => Sᵀ * M) ⁻¹' {M | M 2 2 ∈ s}) =
        (unitCube.map fun u => upper (randomRotation u)) {M | M 2 2 ∈ s} := by
      rw [← Measure.map_apply hm hT, ← Measure.map_map (mul_right_measurable R) (mul_left_measurable Sᵀ), hleft _ hS', hright _ hR]
    rw [a1, a2] at a3
    simp only [e]
    exact a3
  have l2 : unitCube {u | upper (randomRotation u) 2 2 ∈ s} = unitCube ((fun u => u 0) ⁻¹' {x | 2 * x - 1 ∈ s}) := by
    refine measure_congr ?_
    filter_upwards [cube_ae] with u hu
    refine propext ?_
    change upper (randomRotation u) 2 2 ∈ s ↔ 2 * u 0 - 1 ∈ s
    rw [random_homMat (hu 0).1 (hu 0).2.le, random_corner (hu 0).1 (hu 0).2.le]
  haveI : IsProbabilityMeasure ((volume : Measure ℝ).restrict (Ico (0 : ℝ) 1)) := ⟨by simp⟩
  have hs2 : MeasurableSet {x : ℝ | 2 * x - 1 ∈ s} := (show Measurable fun x : ℝ => 2 * x - 1 by fun_prop) hs
  have l3 := (measurePreserving_eval (fun _ : Fin 3 => (volume : Measure ℝ).restrict (Ico (0 : ℝ) 1)) 0).measure_preimage hs2.nullMeasurableSet
  have l4 : {x : ℝ | 2 * x - 1 ∈ s} ∩ Ico 0 1 = (fun x => 2 * x) ⁻¹' ((fun x => x + (-1)) ⁻¹' (s ∩ Ico (-1) 1)) := by
    ext x
    simp only [mem_inter_iff, mem_ofPred_eq, mem_Ico, mem_preimage]
    refine and_congr (by rw [sub_eq_add_neg]) ⟨fun h => ⟨?_, ?_⟩, fun h => ⟨?_, ?_⟩⟩ <;> linarith [h.1, h.2]
  rw [l1, l2]
  refine l3.trans ?_
  rw [Measure.restrict_apply hs2, l4, Real.volume_preimage_mul_left two_ne_zero, measure_preimage_add_right, abs_of_pos (by norm_num),
    ENNReal.ofReal_inv_of_pos two_pos, ENNReal.div_eq_inv_mul]
  simp

/-- the claims are about a case that exists: the numbers 1/2, 0, 1/4 give a turn that exchanges two axes and reverses the third -/
example : upper (randomRotation ![1 / 2, 0, 1 / 4]) = !![-1, 0, 0; 0, 0, 1; 0, 1, 0] := by
  rw [random_homMat (by norm_num) (by norm_num)]
  have h : √(1 / 2 : ℝ) * √(1 / 2) = 1 / 2 := Real.mul_self_sqrt (by norm_num)
  have h2 : π * 2 * (1 / 4) = π / 2 := by ring
  have h3 : (1 : ℝ) - 1 / 2 = 1 / 2 := by norm_num
  have e : randomQuat ![1 / 2, 0, 1 / 4] = ![0, 0, √(1 / 2), √(1 / 2)] := by
    ext i
    fin_cases i <;> simp [randomQuat, h2, h3, -one_div, -Real.sqrt_div_self']
  rw [e]
  generalize √(1 / 2 : ℝ) = s at h
  ext i j
  fin_cases i <;> fin_cases j <;> simp [homMat] <;> linarith

/-- a uniform distribution of rotations exists -/
example : ∃ μ, UniformRotation μ := ⟨_, c110_matrix.1⟩

/-- it is not the one of three random angles: the rotation about the third axis by a random angle leaves that axis -/
example {μ : Measure (Matrix (Fin 3) (Fin 3) ℝ)} (h : ∀ᵐ M ∂μ, M 2 2 = 1) : ¬ UniformRotation μ := by
  intro hu
  have e := c110_only hu
  obtain ⟨hp, -, -⟩ := hu
  have hT : MeasurableSet {M : Matrix (Fin 3) (Fin 3) ℝ | M 2 2 ∈ ({1} : Set ℝ)} := entry_measurable 2 2 (measurableSet_singleton 1)
  have h1 : μ {M : Matrix (Fin 3) (Fin 3) ℝ | M 2 2 ∈ ({1} : Set ℝ)} = 1 := (mem_ae_iff_prob_eq_one hT).1 h
  rw [e, Measure.map_apply_of_aemeasurable random_aem hT] at h1
  have h2 := c110_component (v := ![0, 0, 1]) (w := ![0, 0, 1]) (by simp [dotProduct, Fin.sum_univ_three])
    (by simp [dotProduct, Fin.sum_univ_three]) (measurableSet_singleton 1)
  simp [dotProduct, mulVec, Fin.sum_univ_three] at h1 h2
  rw [h2] at h1
  simp at h1

end Electrode
