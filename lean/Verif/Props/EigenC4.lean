import Verif.Props.EigenC3
import Verif.Props.Register3
import Verif.Props.Arcball
import Verif.Props.RandomRot

/-! C112, continued: `superimposition_matrix`. -/

namespace Electrode

open Matrix Spec

/-- the error of the eigenvalue -/
noncomputable def eigErr : ℝ := 1 / 10 ^ 18 / 2 + 2 * tEps

theorem eigErr_pos : 0 < eigErr := by unfold eigErr; linarith [tEps_pos, show (0:ℝ) < 1 / 10 ^ 18 / 2 by positivity]

namespace Spec

/-- at no point at which the pivots are counted a negative one above `-1e-18` is replaced -/
def GoodSearch (fuel : Nat) (M : Sym4) : Prop :=
  ∀ x ∈ bisPoints (tridiagonalize M) fuel (gershLower (tridiagonalize M)) (gershUpper (tridiagonalize M)), GoodPivots (tridiagonalize M) x

end Spec

theorem isTop_eigen {A V : Matrix (Fin 4) (Fin 4) ℝ} {w : Fin 4 → ℝ} (hV : Vᵀ * V = 1) (h : A * V = V * diagonal w) {m : Fin 4} (hm : ∀ i, w i ≤ w m)
    (hA : Aᵀ = A) : IsTop A (w m) := by
  obtain ⟨l, hl⟩ := exists_top hA
  have h1 : w m ≤ l := hl.2 _ _ (col_eigen hV h m).1 (col_eigen hV h m).2
  obtain ⟨v, hv, he⟩ := hl.1
  have hp := dot_self_pos hv
  have hs : √(v ⬝ᵥ v) ≠ 0 := (Real.sqrt_pos.2 hp).ne'
  have hr := rayleigh hV h hm ((√(v ⬝ᵥ v))⁻¹ • v) (by
    have : quatDot ((√(v ⬝ᵥ v))⁻¹ • v) = (√(v ⬝ᵥ v))⁻¹ * (√(v ⬝ᵥ v))⁻¹ * (v ⬝ᵥ v) := by
      simp [quatDot, dotProduct, Fin.sum_univ_four]
      ring
    rw [this, ← mul_inv, Real.mul_self_sqrt hp.le, inv_mul_cancel₀ hp.ne'])
  rw [mulVec_smul, he, dotProduct_smul, smul_dotProduct, smul_smul, smul_eq_mul, ← mul_inv, Real.mul_self_sqrt hp.le, dotProduct_smul,
    smul_eq_mul, mul_comm l, ← mul_assoc, inv_mul_cancel₀ hp.ne', one_mul] at hr
  rwa [le_antisymm h1 hr]

theorem lastFirst_unit {v : Fin 4 → ℝ} : quatDot (lastFirst v) = lastFirst v ⬝ᵥ lastFirst v := rfl

/-- what the search finds -/
theorem topVector_spec {M : Sym4} {V : Matrix (Fin 4) (Fin 4) ℝ} {w : Fin 4 → ℝ} {m : Fin 4} (hV : Vᵀ * V = 1)
    (hA : symMat M * V = V * diagonal w) (hm : ∀ i, w i ≤ w m) {fuel : Nat} (hg : GoodSearch fuel M) {v : Fin 4 → ℝ}
    (h : topVector fuel M = some (some v)) {D : ℝ} (hD : ∀ i, w m - w i ≤ D) :
    lastFirst v ⬝ᵥ lastFirst v = 1 ∧ ∃ (r : ℝ) (i : Fin 4) (c : ℝ), |r - w m| ≤ eigErr ∧ symMat M *ᵥ lastFirst v = r • lastFirst v + Pi.single i c ∧
      |c| ≤ 2 ^ 25 * (eigErr * (D + eigErr) ^ 3) := by
  unfold topVector at h
  rw [Option.map_eq_some_iff] at h
  obtain ⟨r, hr, hv⟩ := h
  obtain ⟨t, ht⟩ := exists_top (triMat_symm (tridiagonalize M))
  have h1 := c112_max_partial _ t ht fuel r hr hg
  have h2 := tri_top (isTop_eigen hV hA hm (symMat_symm M)) ht
  have h3 : |r - w m| ≤ eigErr := by
    have := abs_add_le (r - t) (t - w m)
    rw [sub_add_sub_cancel] at this
    unfold eigErr
    linarith
  obtain ⟨u, i, c, hc, hcd⟩ := c112_vector _ _ hv
  refine ⟨u, r, i, c, h3, ?_, ?_⟩
  · rw [symMat_shift, sub_mulVec, smul_mulVec, one_mulVec] at hc
    rw [← hc]
    simp
  · refine hcd.trans (mul_le_mul_of_nonneg_left ?_ (by positivity))
    rw [symMat_shift, det_shift hV hA]
    have hf : ∀ i, |w i - r| ≤ D + eigErr := by
      intro i
      have a := abs_le.1 h3
      rw [abs_le]
      have := hD i
      have := hm i
      have hD0 := hD m
      rw [sub_self] at hD0
      constructor <;> linarith
    rw [Finset.abs_prod, ← Finset.mul_prod_erase _ _ (Finset.mem_univ m)]
    have e1 : |w m - r| ≤ eigErr := by rw [abs_sub_comm]; exact h3
    refine mul_le_mul e1 ?_ (Finset.prod_nonneg fun _ _ => abs_nonneg _) eigErr_pos.le
    have : ((Finset.univ : Finset (Fin 4)).erase m).card = 3 := by
      rw [Finset.card_erase_of_mem (Finset.mem_univ m)]; rfl
    rw [← this, ← Finset.prod_const]
    exact Finset.prod_le_prod (fun i _ => abs_nonneg _) fun i _ => hf i

variable {n : Nat}

theorem hornC_mat (v0 v1 : Fin 3 → Fin n → ℝ) : symMat (hornC v0 v1) = symLower (hornN (centred v0) (centred v1)) := by
  have e : ∀ (v : Fin 3 → Fin n → ℝ) a j, v a j - cMean v a = centred v a j := fun v a j => by simp [cMean, centred, negMean, sub_eq_add_neg]
  have e2 : ∀ a b, ∑ j, (v0 a j - cMean v0 a) * (v1 b j - cMean v1 b) = ∑ j, centred v0 a j * centred v1 b j := by
    intro a b
    simp only [e]
  ext i j
  fin_cases i <;> fin_cases j <;> simp [symMat, hornC, symLower, hornN, e2] <;> ring

theorem affine_eq_homN (R : Matrix (Fin 3) (Fin 3) ℝ) (t : Fin 3 → ℝ) : affine R t = homN R t := by
  refine (homN_ext (d := 3) (M := affine R t) fun b => ?_).trans ?_
  · fin_cases b <;> rfl
  · congr 1
    · ext a b
      simp [affine]
    · ext a
      simp [affine]

/-- the factor of the scaling -/
noncomputable def supScale (scaling : Bool) (w0 w1 : Fin 3 → Fin n → ℝ) : ℝ := if scaling then √(frob (centred w1) / frob (centred w0)) else 1

theorem cSupCore_eq (fuel : Nat) (w0 w1 : Fin 3 → Fin n → ℝ) (scaling : Bool) :
    cSupCore fuel w0 w1 scaling = (topVector fuel (hornC w0 w1)).map fun
        | none => .error .valueError
        | some v => .ok (moveBack w0 w1 (homN (supScale scaling w0 w1 • upper (cQuatMatrix (lastFirst v)).1) 0)) := by
  have hfe : ∀ v : Fin 3 → Fin n → ℝ, ∑ a, ∑ j, (v a j - cMean v a) * (v a j - cMean v a) = frob (centred v) := by
    intro v
    unfold frob
    rw [Finset.sum_comm]
    refine Finset.sum_congr rfl fun j _ => Finset.sum_congr rfl fun a _ => ?_
    simp only [cMean, centred, negMean]
    ring
  unfold cSupCore
  congr 1
  funext o
  rcases o with _ | v
  · rfl
  · simp only
    rw [affine_eq_homN, hfe, hfe, moveBack_homN, supScale]
    have e : (if scaling = true then √(frob (centred w1) / frob (centred w0)) • upper (cQuatMatrix ![v 3, v 0, v 1, v 2]).1
        else upper (cQuatMatrix ![v 3, v 0, v 1, v 2]).1) =
        (if scaling = true then √(frob (centred w1) / frob (centred w0)) else 1) • upper (cQuatMatrix (lastFirst v)).1 := by
      cases scaling <;> simp [lastFirst]
    rw [e]
    congr 2
    funext a
    simp only [mulVec, dotProduct, Fin.sum_univ_three, negMean, cMean]
    ring

theorem cSup_eq (fuel : Nat) {e : Nat} (v0 v1 : Fin (3 + e) → Fin n → ℝ) (scaling usesvd : Bool) :
    cSuperimposition fuel v0 v1 scaling usesvd = cSupCore fuel (fun a => v0 (Fin.castAdd e a)) (fun a => v1 (Fin.castAdd e a)) scaling := by
  unfold cSuperimposition
  rw [dif_neg (by omega)]
  rfl

/-- the sum of the eigenvalues is the trace -/
theorem trace_eigen {A V : Matrix (Fin 4) (Fin 4) ℝ} {w : Fin 4 → ℝ} (hV : Vᵀ * V = 1) (h : A * V = V * diagonal w) : A.trace = ∑ i, w i := by
  have h1 : A = V * diagonal w * Vᵀ := by rw [← h, Matrix.mul_assoc, mul_eq_one_comm.1 hV, Matrix.mul_one]
  rw [h1, trace_mul_comm, ← Matrix.mul_assoc, hV, Matrix.one_mul, trace_diagonal]

theorem covar_smul (k : ℝ) (v0 v1 : Matrix (Fin 3) (Fin n) ℝ) (R : Matrix (Fin 3) (Fin 3) ℝ) : covar (k • v0) v1 R = k * covar v0 v1 R := by
  unfold covar
  rw [transpose_smul, Matrix.mul_smul, Matrix.smul_mul, trace_smul, smul_eq_mul]

theorem frob_scaled {R : Matrix (Fin 3) (Fin 3) ℝ} (hR : Rᵀ * R = 1) (k : ℝ) (v0 v1 : Matrix (Fin 3) (Fin n) ℝ) :
    frob (k • R * v0 - v1) = frob (k • v0) + frob v1 - 2 * k * covar v0 v1 R := by
  rw [Matrix.smul_mul, ← Matrix.mul_smul, frob_rot hR, covar_smul]
  ring

/-- how close the rotation that is found is to the best one -/
theorem cSup_covar {w0 w1 : Fin 3 → Fin n → ℝ} {fuel : Nat} (hg : GoodSearch fuel (hornC w0 w1)) {v : Fin 4 → ℝ}
    (h : topVector fuel (hornC w0 w1) = some (some v)) {B : ℝ} (h0 : frob (centred w0) ≤ B) (h1 : frob (centred w1) ≤ B) :
    ∀ R, IsRotN R → covar (centred w0) (centred w1) R ≤
      covar (centred w0) (centred w1) (homMat (lastFirst v)) + (eigErr + 2 ^ 25 * (eigErr * (4 * B + eigErr) ^ 3)) := by
  obtain ⟨V, w, m, hV, hA, hm⟩ := exists_eigen (symMat_symm (hornC w0 w1))
  have hun : quatDot (fun a => V a m) = 1 := by
    have := congrFun (congrFun hV m) m
    simpa [Matrix.mul_apply, quatDot] using this
  have hB : w m ≤ B := by
    have e1 : covar (centred w0) (centred w1) (homMat fun a => V a m) = w m := by
      rw [covar_horn, ← hornC_mat, (col_eigen hV hA m).2, dotProduct_smul, smul_eq_mul]
      have : (fun i => V i m) ⬝ᵥ (fun i => V i m) = 1 := hun
      rw [this, mul_one]
    have hrot : (homMat fun a => V a m)ᵀ * homMat (fun a => V a m) = 1 := by
      have := homMat_rotation (fun a => V a m) (by rw [hun]; norm_num)
      rw [hun, inv_one, one_smul] at this
      exact mul_eq_one_comm.1 this.1
    have := frob_rot hrot (centred w0) (centred w1)
    rw [e1] at this
    linarith [frob_nonneg ((homMat fun a => V a m) * centred w0 - centred w1)]
  have htr : ∑ i, w i = 0 := by
    rw [← trace_eigen hV hA, Matrix.trace, Fin.sum_univ_four]
    simp [symMat, hornC]
    ring
  have hD : ∀ i, w m - w i ≤ 4 * B := by
    rw [Fin.sum_univ_four] at htr
    have m0 := hm 0
    have m1 := hm 1
    have m2 := hm 2
    have m3 := hm 3
    intro i
    fin_cases i <;> simp only [Fin.zero_eta, Fin.mk_one, Fin.reduceFinMk] <;> linarith
  obtain ⟨hu, r, i, c, hr, he, hc⟩ := topVector_spec hV hA hm hg h hD
  intro R hR
  obtain ⟨p, hp, rfl⟩ := rotation_quat (rotN_three.1 hR)
  rw [covar_horn, covar_horn, ← hornC_mat]
  have h2 := rayleigh hV hA hm p hp
  have h3 : lastFirst v ⬝ᵥ (symMat (hornC w0 w1) *ᵥ lastFirst v) = r + lastFirst v i * c := by
    rw [he, dotProduct_add, dotProduct_smul, hu, dotProduct_single, smul_eq_mul, mul_one]
  have h4 : |lastFirst v i * c| ≤ |c| := by
    rw [abs_mul]
    have : |lastFirst v i| ≤ 1 := by
      refine abs_le_one_iff_mul_self_le_one.2 ?_
      rw [← hu]
      exact Finset.single_le_sum (f := fun k => lastFirst v k * lastFirst v k) (fun k _ => mul_self_nonneg _) (Finset.mem_univ i)
    exact mul_le_of_le_one_left (abs_nonneg c) this
  rw [h3]
  have h5 := (abs_le.1 hr).1
  have h6 := (abs_le.1 h4).1
  linarith

theorem topVector_unit {fuel : Nat} {M : Sym4} {v : Fin 4 → ℝ} (h : topVector fuel M = some (some v)) : quatDot (lastFirst v) = 1 := by
  unfold topVector at h
  rw [Option.map_eq_some_iff] at h
  obtain ⟨r, hr, hv⟩ := h
  exact (c112_vector _ _ hv).1

theorem homMat_rotN {q : Quat} (h : quatDot q = 1) : IsRotN (homMat q) := by
  have := homMat_rotation q (by rw [h]; norm_num)
  rw [h, inv_one, one_smul] at this
  exact rotN_three.2 this

/-- if the first points are all the same there is no result -/
theorem topVector_zero (fuel : Nat) (v : Fin 4 → ℝ) : topVector fuel ⟨0, 0, 0, 0, 0, 0, 0, 0, 0, 0⟩ ≠ some (some v) := by
  intro h
  have hT : tridiagonalize ⟨0, 0, 0, 0, 0, 0, 0, 0, 0, 0⟩ = ⟨0, 0, 0, 0, 0, 0, 0⟩ := by
    have e1 : triFirst ⟨0, 0, 0, 0, 0, 0, 0, 0, 0, 0⟩ = ⟨0, 0, 0, 0, 0, 0, 0, 0, 0, 0⟩ := by
      unfold triFirst
      rw [if_neg]
      simp [tEps_pos.le]
    have e2 : triSecond ⟨0, 0, 0, 0, 0, 0, 0, 0, 0, 0⟩ = ⟨0, 0, 0, 0, 0, 0, 0, 0, 0, 0⟩ := by
      unfold triSecond
      rw [if_neg]
      simp [tEps_pos.le]
    simp only [tridiagonalize, e1, e2]
  unfold topVector at h
  rw [Option.map_eq_some_iff] at h
  obtain ⟨r, hr, hv⟩ := h
  rw [hT] at hr
  have hl : gershLower ⟨0, 0, 0, 0, 0, 0, 0⟩ = 0 := by simp [gershLower]
  have hu : gershUpper ⟨0, 0, 0, 0, 0, 0, 0⟩ = 0 := by simp [gershUpper]
  have hr0 : r = 0 := by
    unfold maxEigen at hr
    rw [hl, hu] at hr
    rcases fuel with _ | fuel
    · simp [bisect] at hr
    · rw [bisect_succ _ _ le_rfl, if_pos (by norm_num)] at hr
      have := Option.some.inj hr
      linarith
  subst hr0
  have e : symMat (Sym4.shift ⟨0, 0, 0, 0, 0, 0, 0, 0, 0, 0⟩ 0) = 0 := by ext i j; fin_cases i <;> fin_cases j <;> simp [symMat, Sym4.shift]
  rw [c112_vector_double _ ![1, 0, 0, 0] ![0, 1, 0, 0] (by rw [e, zero_mulVec]) (by rw [e, zero_mulVec]) fun a b h => ?_] at hv
  · simp at hv
  · exact ⟨by simpa using congrFun h 0, by simpa using congrFun h 1⟩

theorem cSup_extent {w0 w1 : Fin 3 → Fin n → ℝ} {fuel : Nat} {v : Fin 4 → ℝ} (h : topVector fuel (hornC w0 w1) = some (some v)) :
    0 < frob (centred w0) := by
  by_contra h0
  have hz : ∀ a j, w0 a j - cMean w0 a = 0 := fun a j => by
    have := frob_eq_zero (not_lt.1 h0) a j
    simp only [centred, negMean] at this
    simp only [cMean]
    linarith
  refine topVector_zero fuel v ?_
  rw [← h]
  congr 1
  simp [hornC, hz]

theorem frob_sums (v : Fin 3 → Fin n → ℝ) : ∑ a, ∑ j, (v a j - (∑ i, v a i) / n) ^ 2 = frob (centred v) := by
  unfold frob
  rw [Finset.sum_comm]
  rfl

theorem cSup_some {fuel : Nat} {e : Nat} {v0 v1 : Fin (3 + e) → Fin n → ℝ} {scaling usesvd : Bool} {M : Matrix (Fin 4) (Fin 4) ℝ}
    (h : cSuperimposition fuel v0 v1 scaling usesvd = some (.ok M)) :
    ∃ v, topVector fuel (hornC (fun a => v0 (Fin.castAdd e a)) fun a => v1 (Fin.castAdd e a)) = some (some v) ∧
      M = moveBack (fun a => v0 (Fin.castAdd e a)) (fun a => v1 (Fin.castAdd e a))
        (homN (supScale scaling (fun a => v0 (Fin.castAdd e a)) (fun a => v1 (Fin.castAdd e a)) • homMat (lastFirst v)) 0) := by
  rw [cSup_eq, cSupCore_eq, Option.map_eq_some_iff] at h
  obtain ⟨o, ho, h⟩ := h
  rcases o with _ | v
  · cases h
  · refine ⟨v, ho, ?_⟩
    simp only [Except.ok.injEq] at h
    rw [← h, cQuatMatrix_unit (topVector_unit ho), quatMatrix_unit _ (topVector_unit ho), upper_homog]

/-- C112: `superimposition_matrix` of the compiled module is a rotation, a scaling by the ratio of the extents if asked for, and a
translation that takes the centroid of the first points to that of the second ones. -/
theorem c112_superimposition_form (fuel : Nat) {e : Nat} (v0 v1 : Fin (3 + e) → Fin n → ℝ) (scaling usesvd : Bool)
    (M : Matrix (Fin 4) (Fin 4) ℝ) (h : cSuperimposition fuel v0 v1 scaling usesvd = some (.ok M)) :
    ∃ k, 0 ≤ k ∧ (scaling = false → k = 1) ∧
      (scaling = true → k ^ 2 * ∑ a : Fin 3, ∑ j, (v0 (Fin.castAdd e a) j - (∑ i, v0 (Fin.castAdd e a) i) / n) ^ 2 =
        ∑ a : Fin 3, ∑ j, (v1 (Fin.castAdd e a) j - (∑ i, v1 (Fin.castAdd e a) i) / n) ^ 2) ∧ IsSimilarity (d := 3) k M ∧
      image (d := 3) M (fun a => (∑ i, v0 (Fin.castAdd e a) i) / n) = fun a => (∑ i, v1 (Fin.castAdd e a) i) / n := by
  obtain ⟨v, hv, rfl⟩ := cSup_some h
  have hpos := cSup_extent hv
  refine ⟨supScale scaling (fun a => v0 (Fin.castAdd e a)) (fun a => v1 (Fin.castAdd e a)), ?_, ?_, ?_, ?_, ?_⟩
  · unfold supScale
    split_ifs
    · exact Real.sqrt_nonneg _
    · norm_num
  · rintro rfl; rfl
  · rintro rfl
    rw [frob_sums (fun a => v0 (Fin.castAdd e a)), frob_sums (fun a => v1 (Fin.castAdd e a)), supScale, if_pos rfl,
      Real.sq_sqrt (div_nonneg (frob_nonneg _) (frob_nonneg _)), div_mul_cancel₀ _ hpos.ne']
  · rw [moveBack_homN]
    exact ⟨affine_homN _ _, _, homMat_rotN (topVector_unit hv), fun a b => by simp⟩
  · rw [moveBack_homN]
    funext a
    rw [image_homN]
    have : (fun a => (∑ i, v0 (Fin.castAdd e a) i) / n) = -negMean (fun a => v0 (Fin.castAdd e a)) := by
      funext a; simp [negMean]
    rw [this, mulVec_neg]
    simp [negMean]

/-- **C112**: the sum of the squares of the distances is the smallest one possible up to an error in proportion to the precision of the
search and to the cube of the extent `B` of the points, if the search for the eigenvalue replaces no pivot of the wrong sign. -/
theorem c112_superimposition_partial (fuel : Nat) {e : Nat} (hn : 0 < n) (v0 v1 : Fin (3 + e) → Fin n → ℝ) (scaling usesvd : Bool)
    (M : Matrix (Fin 4) (Fin 4) ℝ) (h : cSuperimposition fuel v0 v1 scaling usesvd = some (.ok M)) (B : ℝ)
    (h0 : ∑ a : Fin 3, ∑ j, (v0 (Fin.castAdd e a) j - (∑ i, v0 (Fin.castAdd e a) i) / n) ^ 2 ≤ B)
    (h1 : ∑ a : Fin 3, ∑ j, (v1 (Fin.castAdd e a) j - (∑ i, v1 (Fin.castAdd e a) i) / n) ^ 2 ≤ B)
    (hg : GoodSearch fuel (hornC (fun a => v0 (Fin.castAdd e a)) fun a => v1 (Fin.castAdd e a))) :
    ∃ k, IsSimilarity (d := 3) k M ∧ 0 ≤ k ∧ (scaling = false → k = 1) ∧ ∀ M', IsSimilarity (d := 3) k M' →
      sqDist (d := 3) M (fun a => v0 (Fin.castAdd e a)) (fun a => v1 (Fin.castAdd e a)) ≤
        sqDist (d := 3) M' (fun a => v0 (Fin.castAdd e a)) (fun a => v1 (Fin.castAdd e a)) + 2 * k * (2 / 10 ^ 15 + 7 / 10 ^ 8 * (4 * B + 1 / 10 ^ 14) ^ 3) := by
  rw [frob_sums (fun a => v0 (Fin.castAdd e a))] at h0
  rw [frob_sums (fun a => v1 (Fin.castAdd e a))] at h1
  obtain ⟨v, hv, rfl⟩ := cSup_some h
  obtain ⟨w0, hw0⟩ : ∃ w0 : Fin 3 → Fin n → ℝ, w0 = fun a => v0 (Fin.castAdd e a) := ⟨_, rfl⟩
  obtain ⟨w1, hw1⟩ : ∃ w1 : Fin 3 → Fin n → ℝ, w1 = fun a => v1 (Fin.castAdd e a) := ⟨_, rfl⟩
  rw [← hw0] at h0 hg hv ⊢
  rw [← hw1] at h1 hg hv ⊢
  obtain ⟨k, hk⟩ : ∃ k, k = supScale scaling w0 w1 := ⟨_, rfl⟩
  rw [← hk]
  have hk0 : 0 ≤ k := by
    rw [hk]
    unfold supScale
    split_ifs
    · exact Real.sqrt_nonneg _
    · norm_num
  have hrot := homMat_rotN (topVector_unit hv)
  refine ⟨k, ?_, hk0, fun h => by rw [hk, h]; rfl, ?_⟩
  · rw [moveBack_homN]
    exact ⟨affine_homN _ _, _, hrot, fun a b => by simp⟩
  · rintro M' ⟨ha, R', hR', e'⟩
    have hM' : M' = homN (k • R') (fun a => M' a.castSucc (Fin.last 3)) := by
      refine (homN_ext ha).trans ?_
      congr 1
      ext a b
      simp [e']
    have hb := cSup_covar hg hv h0 h1 R' hR'
    have hs := sqDist_split hn (k • R') (fun a => M' a.castSucc (Fin.last 3)) w0 w1
    rw [← hM'] at hs
    rw [sqDist_moveBack]
    rw [frob_scaled hrot.1]
    rw [frob_scaled hR'.1] at hs
    have hB : 0 ≤ B := (frob_nonneg _).trans h0
    have he : eigErr ≤ 2 / 10 ^ 15 := by unfold eigErr tEps; norm_num
    have he2 : 2 ^ 25 * (eigErr * (4 * B + eigErr) ^ 3) ≤ 7 / 10 ^ 8 * (4 * B + 1 / 10 ^ 14) ^ 3 := by
      rw [← mul_assoc]
      refine mul_le_mul ?_ (pow_le_pow_left₀ (by linarith [eigErr_pos]) (by linarith) 3) (pow_nonneg (by linarith [eigErr_pos]) 3) (by norm_num)
      linarith
    have hE := add_le_add he he2
    generalize eigErr + 2 ^ 25 * (eigErr * (4 * B + eigErr) ^ 3) = E at hb hE
    generalize 2 / 10 ^ 15 + 7 / 10 ^ 8 * (4 * B + 1 / 10 ^ 14) ^ 3 = E' at hE ⊢
    generalize covar (centred w0) (centred w1) R' = c' at *
    generalize covar (centred w0) (centred w1) (homMat (lastFirst v)) = c at *
    have := mul_le_mul_of_nonneg_left (show c' ≤ c + E' by linarith) (mul_nonneg (by norm_num : (0:ℝ) ≤ 2) hk0)
    linarith

/-- **C112**: `usesvd` makes no difference. -/
theorem c112_usesvd (fuel : Nat) {d d' n' : Nat} (v0 : Fin d → Fin n → ℝ) (v1 : Fin d' → Fin n' → ℝ) (scaling usesvd usesvd' : Bool) :
    cSuperimposition fuel v0 v1 scaling usesvd = cSuperimposition fuel v0 v1 scaling usesvd' := rfl

/-- **C112**: arrays with less than three rows or with two shapes are refused, but the fourth and further rows do not count. -/
theorem c112_shape (fuel : Nat) {d d' n' : Nat} (v0 : Fin d → Fin n → ℝ) (v1 : Fin d' → Fin n' → ℝ) (scaling usesvd : Bool)
    (h : d < 3 ∨ d ≠ d' ∨ n ≠ n') : cSuperimposition fuel v0 v1 scaling usesvd = some (.error .valueError) := by
  unfold cSuperimposition
  rw [dif_pos]
  omega

/-- **C112**: the function ends for all points. -/
theorem c112_superimposition_ends {e : Nat} (v0 v1 : Fin (3 + e) → Fin n → ℝ) (scaling usesvd : Bool) :
    ∃ N r, ∀ fuel ≥ N, cSuperimposition fuel v0 v1 scaling usesvd = some r := by
  obtain ⟨N, r, h⟩ := c112_terminates (tridiagonalize (hornC (fun a => v0 (Fin.castAdd e a)) fun a => v1 (Fin.castAdd e a)))
  obtain ⟨r', hr'⟩ : ∃ r', cSuperimposition N v0 v1 scaling usesvd = some r' := by
    rw [cSup_eq, cSupCore, topVector, h N le_rfl]
    exact ⟨_, rfl⟩
  refine ⟨N, r', fun fuel hf => ?_⟩
  rw [← hr', cSup_eq, cSup_eq, cSupCore, cSupCore, topVector, topVector, h fuel hf, h N le_rfl]

end Electrode
