import Verif.Props.Register

/-! C107, continued: the rotation of Horn, and the theorems. -/

namespace Electrode

open Matrix Spec

variable {d n : Nat}

/-! the rotation of Horn -/

/-- the matrix of Horn -/
noncomputable def hornN (v0 v1 : Matrix (Fin 3) (Fin n) ℝ) : Matrix (Fin 4) (Fin 4) ℝ :=
  let H : Fin 3 → Fin 3 → ℝ := fun a b => ∑ j, v0 a j * v1 b j
  !![H 0 0 + H 1 1 + H 2 2, 0, 0, 0;
    H 1 2 - H 2 1, H 0 0 - H 1 1 - H 2 2, 0, 0;
    H 2 0 - H 0 2, H 0 1 + H 1 0, H 1 1 - H 0 0 - H 2 2, 0;
    H 0 1 - H 1 0, H 2 0 + H 0 2, H 1 2 + H 2 1, H 2 2 - H 0 0 - H 1 1]

theorem hornQuat_eq (lib : RegLib) (v0 v1 : Matrix (Fin 3) (Fin n) ℝ) :
    hornQuat lib v0 v1 = fun a => (lib.eigh (hornN v0 v1)).2 a (lib.argmax (lib.eigh (hornN v0 v1)).1) /
      √(quatDot fun a => (lib.eigh (hornN v0 v1)).2 a (lib.argmax (lib.eigh (hornN v0 v1)).1)) := rfl

theorem covar_sum (v0 v1 : Matrix (Fin d) (Fin n) ℝ) (R : Matrix (Fin d) (Fin d) ℝ) :
    covar v0 v1 R = ∑ a, ∑ b, (∑ j, v0 b j * v1 a j) * R a b := by
  simp only [covar, Matrix.trace, Matrix.diag, Matrix.mul_apply, transpose_apply]
  simp only [mul_comm]

theorem covar_horn (v0 v1 : Matrix (Fin 3) (Fin n) ℝ) (q : Quat) :
    covar v0 v1 (homMat q) = q ⬝ᵥ (symLower (hornN v0 v1) *ᵥ q) := by
  rw [covar_sum]
  obtain ⟨H, hH⟩ : ∃ H : Fin 3 → Fin 3 → ℝ, H = fun a b => ∑ j, v0 a j * v1 b j := ⟨_, rfl⟩
  have e : ∀ a b, ∑ j, v0 b j * v1 a j = H b a := fun a b => by rw [hH]
  simp only [e, hornN]
  simp [Fin.sum_univ_three, homMat, dotProduct, Matrix.mulVec, Fin.sum_univ_four, symLower]
  ring

theorem rayleigh {K : Matrix (Fin 4) (Fin 4) ℝ} {w : Fin 4 → ℝ} {V : Matrix (Fin 4) (Fin 4) ℝ} (hV : Vᵀ * V = 1)
    (hK : K * V = V * diagonal w) {m : Fin 4} (hm : ∀ a, w a ≤ w m) (q : Quat) (hq : quatDot q = 1) : q ⬝ᵥ (K *ᵥ q) ≤ w m := by
  have hV' : V * Vᵀ = 1 := mul_eq_one_comm.1 hV
  obtain ⟨y, hy⟩ : ∃ y, y = Vᵀ *ᵥ q := ⟨_, rfl⟩
  have hq' : q = V *ᵥ y := by rw [hy, mulVec_mulVec, hV', one_mulVec]
  have h1 : q ⬝ᵥ (K *ᵥ q) = ∑ k, w k * (y k * y k) := by
    have : q ⬝ᵥ (K *ᵥ q) = y ⬝ᵥ (diagonal w *ᵥ y) := by
      conv_lhs => rw [hq', mulVec_mulVec, hK, ← mulVec_mulVec, dotProduct_mulVec, ← mulVec_transpose, mulVec_mulVec, hV, one_mulVec]
    rw [this]
    simp only [dotProduct, mulVec_diagonal]
    exact Finset.sum_congr rfl fun k _ => by ring
  have h2 : ∑ k, y k * y k = 1 := by
    have : q ⬝ᵥ q = y ⬝ᵥ y := by
      conv_lhs => rw [hq', dotProduct_mulVec, ← mulVec_transpose, mulVec_mulVec, hV, one_mulVec]
    rw [← hq]
    exact this.symm
  rw [h1]
  calc ∑ k, w k * (y k * y k) ≤ ∑ k, w m * (y k * y k) :=
        Finset.sum_le_sum fun k _ => mul_le_mul_of_nonneg_right (hm k) (mul_self_nonneg _)
    _ = w m := by rw [← Finset.mul_sum, h2, mul_one]

theorem rotN_three {R : Matrix (Fin 3) (Fin 3) ℝ} : IsRotN R ↔ IsRotation R :=
  ⟨fun h => ⟨mul_eq_one_comm.1 h.1, h.2⟩, fun h => ⟨mul_eq_one_comm.1 h.1, h.2⟩⟩

theorem upper_homog (R : Matrix (Fin 3) (Fin 3) ℝ) : upper (homog R) = R := by
  ext a b
  exact (homog_spec R).1 a b

theorem horn_spec {lib : RegLib} (hl : IsRegLib lib) (v0 v1 : Matrix (Fin 3) (Fin n) ℝ) :
    IsRotN (upper (quatMatrix (hornQuat lib v0 v1))) ∧
      ∀ R, IsRotN R → covar v0 v1 R ≤ covar v0 v1 (upper (quatMatrix (hornQuat lib v0 v1))) := by
  obtain ⟨w, hw⟩ : ∃ w, w = (lib.eigh (hornN v0 v1)).1 := ⟨_, rfl⟩
  obtain ⟨V, hV⟩ : ∃ V, V = (lib.eigh (hornN v0 v1)).2 := ⟨_, rfl⟩
  obtain ⟨e1, e2⟩ := hl.2.2.1 (hornN v0 v1)
  have e3 := hl.2.2.2 w
  rw [← hV] at e1 e2
  rw [← hw] at e2
  obtain ⟨m, hm⟩ : ∃ m, m = lib.argmax w := ⟨_, rfl⟩
  rw [← hm] at e3
  have hun : quatDot (fun a => V a m) = 1 := by
    have := congrFun (congrFun e1 m) m
    simpa [Matrix.mul_apply, quatDot] using this
  have hq : hornQuat lib v0 v1 = fun a => V a m := by
    rw [hornQuat_eq, ← hw, ← hV, ← hm, hun, Real.sqrt_one]
    simp
  rw [hq, quatMatrix_unit _ hun, upper_homog]
  refine ⟨?_, fun R hR => ?_⟩
  · rw [rotN_three]
    have := homMat_rotation (fun a => V a m) (by rw [hun]; norm_num)
    rwa [hun, inv_one, one_smul] at this
  · rw [rotN_three] at hR
    obtain ⟨a1, a2, -⟩ := c83_precise (homog R) R (homog_spec R) hR
    rw [quatMatrix_unit _ a1] at a2
    have : R = homMat (quatFromPrecise (homog R)) := by rw [← upper_homog R, ← a2, upper_homog, a2]
    rw [this, covar_horn, covar_horn]
    refine (rayleigh e1 e2 e3 _ a1).trans (le_of_eq ?_)
    have hcol : symLower (hornN v0 v1) *ᵥ (fun a => V a m) = fun a => w m * V a m := by
      ext a
      have := congrFun (congrFun e2 a) m
      rw [Matrix.mul_diagonal, Matrix.mul_apply] at this
      rw [mul_comm]
      exact this
    rw [hcol]
    have : (fun a => V a m) ⬝ᵥ (fun a => w m * V a m) = w m * quatDot (fun a => V a m) := by
      simp only [dotProduct, quatDot, Finset.mul_sum]
      exact Finset.sum_congr rfl fun a _ => by ring
    rw [this, hun, mul_one]

theorem rigid_spec {lib : RegLib} (hl : IsRegLib lib) (hd : 0 < d) (usesvd : Bool) (v0 v1 : Matrix (Fin d) (Fin n) ℝ) :
    IsRotN (rigidPart lib hd usesvd v0 v1) ∧ ∀ R, IsRotN R → covar v0 v1 R ≤ covar v0 v1 (rigidPart lib hd usesvd v0 v1) := by
  unfold rigidPart
  by_cases h : usesvd = false ∧ d = 3
  · rw [dif_pos h]
    obtain ⟨-, rfl⟩ := h
    exact horn_spec hl v0 v1
  · rw [dif_neg h]
    exact kabsch_spec hl hd v0 v1

/-! the theorems -/

/-- C107: the functions of numpy exist. -/
theorem exists_regLib : ∃ lib, IsRegLib lib := by
  have h1 : ∀ (m n : Nat) (A : Matrix (Fin m) (Fin n) ℝ), ∃ r : Svd m n, IsSvd A r.u r.s r.vh := by
    intro m n A
    obtain ⟨u, s, vh, h⟩ := exists_isSvd A
    exact ⟨⟨u, s, vh⟩, h⟩
  choose svd hsvd using h1
  have h2 : ∀ (n : Nat) (B : Matrix (Fin n) (Fin n) ℝ), ∃ G : Matrix (Fin n) (Fin n) ℝ, IsMoorePenrose B G := by
    intro n B
    have h := hsvd n n B
    obtain ⟨u, hu⟩ : ∃ u, u = (svd n n B).u := ⟨_, rfl⟩
    obtain ⟨v, hv⟩ : ∃ v, v = (svd n n B).vh := ⟨_, rfl⟩
    obtain ⟨S, hS⟩ : ∃ S : Fin n → ℝ, S = fun k : Fin n => (svd n n B).s k := ⟨_, rfl⟩
    have hB := svd_square h
    rw [← hu, ← hv, ← hS] at hB
    have hu1 := h.1
    have hv1 := h.2.1
    rw [← hu] at hu1
    rw [← hv] at hv1
    obtain ⟨T, hT⟩ : ∃ T : Fin n → ℝ, T = fun k => (S k)⁻¹ := ⟨_, rfl⟩
    have hBG : u * diagonal S * v * (vᵀ * diagonal T * uᵀ) = u * (diagonal S * diagonal T) * uᵀ := by
      calc u * diagonal S * v * (vᵀ * diagonal T * uᵀ) = u * (diagonal S * (v * vᵀ) * diagonal T) * uᵀ := by simp only [Matrix.mul_assoc]
        _ = _ := by rw [hv1, Matrix.mul_one]
    have hGB : vᵀ * diagonal T * uᵀ * (u * diagonal S * v) = vᵀ * (diagonal T * diagonal S) * v := by
      calc vᵀ * diagonal T * uᵀ * (u * diagonal S * v) = vᵀ * (diagonal T * (uᵀ * u) * diagonal S) * v := by simp only [Matrix.mul_assoc]
        _ = _ := by rw [hu1, Matrix.mul_one]
    have hST : ∀ k, S k * T k * S k = S k := fun k => by rw [hT]; by_cases h : S k = 0 <;> simp [h]
    have hTS : ∀ k, T k * S k * T k = T k := fun k => by rw [hT]; by_cases h : S k = 0 <;> simp [h]
    refine ⟨vᵀ * diagonal T * uᵀ, ?_⟩
    rw [hB]
    refine ⟨?_, ?_, ?_, ?_⟩
    · rw [hBG]
      calc u * (diagonal S * diagonal T) * uᵀ * (u * diagonal S * v)
          = u * (diagonal S * diagonal T * (uᵀ * u) * diagonal S) * v := by simp only [Matrix.mul_assoc]
        _ = u * diagonal S * v := by
          rw [hu1, Matrix.mul_one, diagonal_mul_diagonal, diagonal_mul_diagonal]
          simp only [hST]
    · rw [hGB]
      calc vᵀ * (diagonal T * diagonal S) * v * (vᵀ * diagonal T * uᵀ)
          = vᵀ * (diagonal T * diagonal S * (v * vᵀ) * diagonal T) * uᵀ := by simp only [Matrix.mul_assoc]
        _ = vᵀ * diagonal T * uᵀ := by
          rw [hv1, Matrix.mul_one, diagonal_mul_diagonal, diagonal_mul_diagonal]
          simp only [hTS]
    · rw [hBG, diagonal_mul_diagonal, transpose_mul, transpose_mul, transpose_transpose, diagonal_transpose, Matrix.mul_assoc]
    · rw [hGB, diagonal_mul_diagonal, transpose_mul, transpose_mul, transpose_transpose, diagonal_transpose, Matrix.mul_assoc]
  choose pinv hpinv using h2
  obtain ⟨⟨eigh, he⟩, argmax, ha⟩ : (∃ eigh, IsEigh4 eigh) ∧ ∃ argmax, IsArgmax argmax := by
    constructor
    · have ex : ∀ K : Matrix (Fin 4) (Fin 4) ℝ, ∃ wV : (Fin 4 → ℝ) × Matrix (Fin 4) (Fin 4) ℝ,
          wV.2ᵀ * wV.2 = 1 ∧ symLower K * wV.2 = wV.2 * Matrix.diagonal wV.1 := by
        intro K
        have hH : (symLower K).IsHermitian := by
          ext a b
          simp only [Matrix.conjTranspose_apply, symLower, star_trivial]
          rcases lt_trichotomy a b with h | h | h
          · simp [h.le, not_le.2 h]
          · subst h; rfl
          · simp [h.le, not_le.2 h]
        have hu := (hH.eigenvectorUnitary).2
        have hu1 := (Matrix.mem_unitaryGroup_iff'.1 hu)
        refine ⟨(hH.eigenvalues, (hH.eigenvectorUnitary : Matrix (Fin 4) (Fin 4) ℝ)), hu1, ?_⟩
        ext a j
        have := congrFun (hH.mulVec_eigenvectorBasis j) a
        rw [Matrix.mul_diagonal]
        simp only [Matrix.mulVec, dotProduct, Pi.smul_apply, smul_eq_mul] at this
        rw [Matrix.mul_apply]
        simp only [Matrix.IsHermitian.eigenvectorUnitary_apply]
        rw [this, mul_comm]
      choose e he using ex
      exact ⟨e, he⟩
    · have ex : ∀ w : Fin 4 → ℝ, ∃ i, ∀ a, w a ≤ w i := fun w => Finite.exists_max w
      choose e he using ex
      exact ⟨e, he⟩
  exact ⟨⟨svd, pinv, eigh, argmax⟩, hsvd, hpinv, he, ha⟩

theorem fromPoints_rigid (lib : RegLib) (hd : 2 ≤ d) (hn : d ≤ n) (v0 v1 : Fin d → Fin n → ℝ) (usesvd : Bool) :
    affineFromPoints lib v0 v1 false false usesvd =
      .ok (some (moveBack v0 v1 (homN (rigidPart lib (by omega) usesvd (centred v0) (centred v1)) 0))) := by
  unfold affineFromPoints
  rw [dif_neg (by omega)]
  rfl

theorem fromPoints_scale (lib : RegLib) (hd : 2 ≤ d) (hn : d ≤ n) (v0 v1 : Fin d → Fin n → ℝ) (usesvd : Bool) :
    affineFromPoints lib v0 v1 false true usesvd =
      if frob (centred v0) = 0 then .ok none else
      .ok (some (moveBack v0 v1 (homN (√(frob (centred v1) / frob (centred v0)) •
        rigidPart lib (by omega) usesvd (centred v0) (centred v1)) 0))) := by
  have e : ∀ X : Matrix (Fin d) (Fin n) ℝ, ∑ a, ∑ j, X a j * X a j = frob X := by
    intro X
    unfold frob
    rw [Finset.sum_comm]
    simp only [pow_two]
  unfold affineFromPoints
  rw [dif_neg (by omega)]
  simp only [Fin.cast_refl, id_eq]
  simp only [Bool.false_eq_true, if_false, if_true, e]

theorem fromPoints_shear (lib : RegLib) (hd : 2 ≤ d) (hn : d ≤ n) (v0 v1 : Fin d → Fin n → ℝ) (scale usesvd : Bool) :
    affineFromPoints lib v0 v1 true scale usesvd =
      .ok (some (moveBack v0 v1 (homN (shearPart lib (centred v0) (centred v1)) 0))) := by
  unfold affineFromPoints
  rw [dif_neg (by omega)]
  rfl

theorem rotN_linear {M : Matrix (Fin (d + 1)) (Fin (d + 1)) ℝ} (h : IsSimilarity 1 M) :
    ∃ R t, IsRotN R ∧ M = homN R t := by
  obtain ⟨ha, R, hR, e⟩ := h
  refine ⟨R, fun a => M a.castSucc (Fin.last d), hR, (homN_ext ha).trans ?_⟩
  congr 1
  ext a b
  simp [e]

/-- C107: the arrays are refused exactly if there are less than two rows, less columns than rows, or two different shapes. -/
theorem c107_shape (lib : RegLib) {d d' n n' : Nat} (v0 : Fin d → Fin n → ℝ) (v1 : Fin d' → Fin n' → ℝ) (shear scale usesvd : Bool) :
    affineFromPoints lib v0 v1 shear scale usesvd = .error .valueError ↔ d < 2 ∨ n < d ∨ d ≠ d' ∨ n ≠ n' := by
  unfold affineFromPoints
  by_cases h : d < 2 ∨ n < d ∨ ¬ (d = d' ∧ n = n')
  · rw [dif_pos h]
    simp only [true_iff]
    tauto
  · rw [dif_neg h]
    constructor
    · intro hh
      exfalso
      revert hh
      dsimp only
      split_ifs <;> simp
    · intro hh
      exfalso
      tauto

/-- C107: without shear and scale the result is a rotation and a translation, and no other rotation and translation brings the points
nearer to each other.  This is so in any number of dimensions, and with both methods. -/
theorem c107_rigid (lib : RegLib) (hl : IsRegLib lib) {d n : Nat} (hd : 2 ≤ d) (hn : d ≤ n) (v0 v1 : Fin d → Fin n → ℝ) (usesvd : Bool) :
    ∃ M, affineFromPoints lib v0 v1 false false usesvd = .ok (some M) ∧ IsSimilarity 1 M ∧
      ∀ M', IsSimilarity 1 M' → sqDist M v0 v1 ≤ sqDist M' v0 v1 := by
  refine ⟨_, fromPoints_rigid lib hd hn v0 v1 usesvd, ?_, ?_⟩
  · obtain ⟨hR, -⟩ := rigid_spec hl (by omega : 0 < d) usesvd (centred v0) (centred v1)
    rw [moveBack_homN]
    exact ⟨affine_homN _ _, _, hR, fun a b => by simp⟩
  · intro M' hM'
    obtain ⟨R', t', hR', rfl⟩ := rotN_linear hM'
    obtain ⟨hR, hmax⟩ := rigid_spec hl (by omega : 0 < d) usesvd (centred v0) (centred v1)
    refine le_trans ?_ (sqDist_split (by omega) R' t' v0 v1)
    rw [sqDist_moveBack, frob_rot hR.1, frob_rot hR'.1]
    have := hmax R' hR'
    linarith

theorem sqDist_zero {M : Matrix (Fin (d + 1)) (Fin (d + 1)) ℝ} {v0 v1 : Fin d → Fin n → ℝ} (h : sqDist M v0 v1 ≤ 0) (j : Fin n) :
    image M (fun b => v0 b j) = fun a => v1 a j := by
  ext a
  have := frob_eq_zero (X := fun a j => image M (fun b => v0 b j) a - v1 a j) h a j
  exact sub_eq_zero.1 this

/-- C107: if some rotation and translation takes the first points to the second ones, so does the result. -/
theorem c107_exact (lib : RegLib) (hl : IsRegLib lib) {d n : Nat} (hd : 2 ≤ d) (hn : d ≤ n) (v0 v1 : Fin d → Fin n → ℝ) (usesvd : Bool)
    (M' : Matrix (Fin (d + 1)) (Fin (d + 1)) ℝ) (hM' : IsSimilarity 1 M') (hv : ∀ j, image M' (fun b => v0 b j) = fun a => v1 a j) :
    ∃ M, affineFromPoints lib v0 v1 false false usesvd = .ok (some M) ∧ ∀ j, image M (fun b => v0 b j) = fun a => v1 a j := by
  obtain ⟨M, h1, -, h2⟩ := c107_rigid lib hl hd hn v0 v1 usesvd
  refine ⟨M, h1, fun j => sqDist_zero ((h2 M' hM').trans (le_of_eq ?_)) j⟩
  unfold sqDist
  simp [hv]

/-- the points are not all the same -/
theorem frob_centred_zero (hn : 0 < n) (v : Fin d → Fin n → ℝ) : frob (centred v) = 0 ↔ ∀ a i j, v a i = v a j := by
  constructor
  · intro h a i j
    have hi := frob_eq_zero h.le a i
    have hj := frob_eq_zero h.le a j
    simp only [centred] at hi hj
    linarith
  · intro h
    unfold frob
    refine Finset.sum_eq_zero fun j _ => Finset.sum_eq_zero fun a _ => ?_
    have : centred v a j = 0 := by
      have hn' : (n : ℝ) ≠ 0 := by positivity
      simp only [centred, negMean]
      rw [Finset.sum_congr rfl fun i _ => h a i j]
      simp only [Finset.sum_const, Finset.card_univ, Fintype.card_fin, nsmul_eq_mul]
      field_simp
      ring
    rw [this]
    norm_num

/-- C107: with scale and without shear the result has nan exactly if the first points are all the same. -/
theorem c107_scale_nan (lib : RegLib) {d n : Nat} (hd : 2 ≤ d) (hn : d ≤ n) (v0 v1 : Fin d → Fin n → ℝ) (usesvd : Bool) :
    affineFromPoints lib v0 v1 false true usesvd = .ok none ↔ ∀ a i j, v0 a i = v0 a j := by
  rw [fromPoints_scale lib hd hn, ← frob_centred_zero (by omega)]
  split <;> simp_all

/-- C107: with scale and without shear, if some rotation, scaling and translation takes the first points, not all the same, to the second
ones, so does the result. -/
theorem c107_scale (lib : RegLib) (hl : IsRegLib lib) {d n : Nat} (hd : 2 ≤ d) (hn : d ≤ n) (v0 v1 : Fin d → Fin n → ℝ) (usesvd : Bool)
    (hne : ∃ a i j, v0 a i ≠ v0 a j) (k : ℝ) (hk : 0 < k) (M' : Matrix (Fin (d + 1)) (Fin (d + 1)) ℝ) (hM' : IsSimilarity k M')
    (hv : ∀ j, image M' (fun b => v0 b j) = fun a => v1 a j) :
    ∃ M, affineFromPoints lib v0 v1 false true usesvd = .ok (some M) ∧ IsSimilarity k M ∧
      ∀ j, image M (fun b => v0 b j) = fun a => v1 a j := by
  have hz : frob (centred v0) ≠ 0 := by
    rw [Ne, frob_centred_zero (by omega)]
    obtain ⟨a, i, j, h⟩ := hne
    exact fun h' => h (h' a i j)
  obtain ⟨ha, R', hR', e⟩ := hM'
  obtain ⟨t, ht⟩ : ∃ t : Fin d → ℝ, ∀ a j, v1 a j = k * (∑ b, R' a b * v0 b j) + t a := by
    refine ⟨fun a => M' a.castSucc (Fin.last d), fun a j => ?_⟩
    have := congrFun (hv j) a
    simp only [image, e] at this
    rw [← this, Finset.mul_sum]
    simp only [mul_assoc]
  have hn0 : (n : ℝ) ≠ 0 := by
    have : 0 < n := by omega
    positivity
  have hc : centred v1 = k • (R' * centred v0) := by
    ext a j
    have hm : negMean v1 a = k * (∑ b, R' a b * negMean v0 b) - t a := by
      simp only [negMean, ht, Finset.sum_add_distrib, Finset.sum_const, Finset.card_univ, Fintype.card_fin, nsmul_eq_mul, ← Finset.mul_sum]
      rw [Finset.sum_comm]
      simp only [← Finset.mul_sum, mul_neg, Finset.sum_neg_distrib, mul_div_assoc', ← Finset.sum_div]
      field_simp
      ring
    rw [Matrix.smul_apply, Matrix.mul_apply]
    simp only [centred, ht, hm, mul_add, Finset.sum_add_distrib, smul_eq_mul]
    ring
  obtain ⟨hR, hmax⟩ := rigid_spec hl (by omega : 0 < d) usesvd (centred v0) (centred v1)
  obtain ⟨R, hRe⟩ : ∃ R, R = rigidPart lib (by omega : 0 < d) usesvd (centred v0) (centred v1) := ⟨_, rfl⟩
  rw [← hRe] at hR hmax
  have hfr : frob (R' * centred v0) = frob (centred v0) := by
    have := frob_rot hR'.1 (centred v0) (0 : Matrix (Fin d) (Fin n) ℝ)
    simpa [covar, frob_trace] using this
  have hcov : ∀ S, covar (centred v0) (centred v1) S = k * covar (centred v0) (R' * centred v0) S := by
    intro S
    unfold covar
    rw [hc, Matrix.smul_mul, Matrix.smul_mul, Matrix.trace_smul, smul_eq_mul]
  have heq : R * centred v0 = R' * centred v0 := by
    have h1 := frob_rot hR.1 (centred v0) (R' * centred v0)
    have h2 := frob_rot hR'.1 (centred v0) (R' * centred v0)
    rw [sub_self] at h2
    have h3 : frob (0 : Matrix (Fin d) (Fin n) ℝ) = 0 := by simp [frob]
    rw [h3] at h2
    have h4 := hmax R' hR'
    rw [hcov, hcov] at h4
    have h5 := le_of_mul_le_mul_left h4 hk
    ext a j
    have := frob_eq_zero (X := R * centred v0 - R' * centred v0) (by linarith) a j
    rw [Matrix.sub_apply] at this
    linarith
  have hs : √(frob (centred v1) / frob (centred v0)) = k := by
    have : frob (centred v1) = k ^ 2 * frob (centred v0) := by
      rw [hc, ← hfr, frob, frob, Finset.mul_sum]
      refine Finset.sum_congr rfl fun j _ => ?_
      rw [Finset.mul_sum]
      refine Finset.sum_congr rfl fun a _ => ?_
      rw [Matrix.smul_apply, smul_eq_mul, mul_pow]
    rw [this, mul_div_cancel_right₀ _ hz, Real.sqrt_sq hk.le]
  refine ⟨_, (fromPoints_scale lib hd hn v0 v1 usesvd).trans (if_neg hz), ?_, fun j => ?_⟩
  · rw [moveBack_homN, hs, ← hRe]
    exact ⟨affine_homN _ _, R, hR, fun a b => by simp⟩
  · ext a
    rw [image_moveBack, hs, ← hRe, Matrix.smul_mul, heq, ← hc]
    simp [centred]

end Electrode
