import Verif.Model.Register
import Verif.Lemmas.OrthTrace
import Verif.Lemmas.SvdExists
import Verif.Props.QuatFrom

/-! C107: `affine_matrix_from_points` and `superimposition_matrix` find the best matrix that takes one set of points to another. -/

namespace Electrode

open Matrix Spec

namespace Spec

variable {d n : Nat}

/-- the image of a point under a homogeneous matrix with the last row of the identity -/
def image (M : Matrix (Fin (d + 1)) (Fin (d + 1)) ℝ) (x : Fin d → ℝ) : Fin d → ℝ :=
  fun a => ∑ b, M a.castSucc b.castSucc * x b + M a.castSucc (Fin.last d)

/-- the last row is that of the identity -/
def IsAffineN (M : Matrix (Fin (d + 1)) (Fin (d + 1)) ℝ) : Prop := ∀ b, M (Fin.last d) b = if b = Fin.last d then 1 else 0

/-- `R` is a rotation in `d` dimensions -/
def IsRotN (R : Matrix (Fin d) (Fin d) ℝ) : Prop := Rᵀ * R = 1 ∧ R.det = 1

/-- a rotation, a scaling by `k` and a translation -/
def IsSimilarity (k : ℝ) (M : Matrix (Fin (d + 1)) (Fin (d + 1)) ℝ) : Prop :=
  IsAffineN M ∧ ∃ R, IsRotN R ∧ ∀ a b : Fin d, M a.castSucc b.castSucc = k * R a b

/-- the sum of the squares of the distances between the images of the first points and the second points -/
def sqDist (M : Matrix (Fin (d + 1)) (Fin (d + 1)) ℝ) (v0 v1 : Fin d → Fin n → ℝ) : ℝ :=
  ∑ j, ∑ a, (image M (fun b => v0 b j) a - v1 a j) ^ 2

/-- `G` is the inverse of `B` in the sense of Moore and Penrose -/
def IsMoorePenrose (B G : Matrix (Fin n) (Fin n) ℝ) : Prop := B * G * B = B ∧ G * B * G = G ∧ (B * G)ᵀ = B * G ∧ (G * B)ᵀ = G * B

/-- what the functions of numpy promise -/
def IsRegLib (lib : RegLib) : Prop :=
  (∀ (m n : Nat) (A : Matrix (Fin m) (Fin n) ℝ), IsSvd A (lib.svd m n A).u (lib.svd m n A).s (lib.svd m n A).vh) ∧
    (∀ (n : Nat) (B : Matrix (Fin n) (Fin n) ℝ), IsMoorePenrose B (lib.pinv n B)) ∧ IsEigh4 lib.eigh ∧ IsArgmax lib.argmax

end Spec

variable {d n : Nat}

/-! homogeneous matrices -/

@[simp] theorem homN_cc (R : Matrix (Fin d) (Fin d) ℝ) (t : Fin d → ℝ) (a b : Fin d) : homN R t a.castSucc b.castSucc = R a b := by
  simp [homN]

@[simp] theorem homN_cl (R : Matrix (Fin d) (Fin d) ℝ) (t : Fin d → ℝ) (a : Fin d) : homN R t a.castSucc (Fin.last d) = t a := by
  simp [homN]

@[simp] theorem homN_l (R : Matrix (Fin d) (Fin d) ℝ) (t : Fin d → ℝ) (b : Fin (d + 1)) :
    homN R t (Fin.last d) b = if b = Fin.last d then 1 else 0 := by
  simp [homN]

theorem homN_ext {M : Matrix (Fin (d + 1)) (Fin (d + 1)) ℝ} (h : IsAffineN M) :
    M = homN (Matrix.of fun a b => M a.castSucc b.castSucc) (fun a => M a.castSucc (Fin.last d)) := by
  ext a b
  refine Fin.lastCases ?_ (fun a => ?_) a
  · rw [h, homN_l]
  · refine Fin.lastCases ?_ (fun b => ?_) b <;> simp

theorem homN_mul (R S : Matrix (Fin d) (Fin d) ℝ) (t r : Fin d → ℝ) :
    homN R t * homN S r = homN (R * S) (fun a => (R *ᵥ r) a + t a) := by
  ext a b
  rw [Matrix.mul_apply, Fin.sum_univ_castSucc]
  refine Fin.lastCases ?_ (fun a => ?_) a
  · refine Fin.lastCases ?_ (fun b => ?_) b <;> simp [Fin.castSucc_ne_last]
  · refine Fin.lastCases ?_ (fun b => ?_) b <;> simp [Fin.castSucc_ne_last, Matrix.mul_apply, Matrix.mulVec, dotProduct]

theorem homN_one : homN (1 : Matrix (Fin d) (Fin d) ℝ) 0 = 1 := by
  ext a b
  refine Fin.lastCases ?_ (fun a => ?_) a
  · simp [Matrix.one_apply, eq_comm]
  · refine Fin.lastCases ?_ (fun b => ?_) b <;> simp [Fin.castSucc_ne_last, Matrix.one_apply]

theorem homN_inv (t : Fin d → ℝ) : (homN (1 : Matrix (Fin d) (Fin d) ℝ) t)⁻¹ = homN 1 (fun a => -t a) := by
  apply Matrix.inv_eq_right_inv
  rw [homN_mul, one_mul, ← homN_one]
  congr 1
  ext a
  simp

theorem moveBack_homN (v0 v1 : Fin d → Fin n → ℝ) (R : Matrix (Fin d) (Fin d) ℝ) :
    moveBack v0 v1 (homN R 0) = homN R (fun a => (R *ᵥ negMean v0) a - negMean v1 a) := by
  have e : (homN (1 : Matrix (Fin d) (Fin d) ℝ) (negMean v1))⁻¹ * (homN R 0 * homN 1 (negMean v0)) =
      homN R (fun a => (R *ᵥ negMean v0) a - negMean v1 a) := by
    rw [homN_inv, homN_mul, homN_mul, mul_one, one_mul]
    congr 1
    ext a
    simp [sub_eq_add_neg]
  unfold moveBack
  simp only [e]
  ext a b
  simp

theorem affine_homN (R : Matrix (Fin d) (Fin d) ℝ) (t : Fin d → ℝ) : IsAffineN (homN R t) := fun b => by simp

theorem image_homN (R : Matrix (Fin d) (Fin d) ℝ) (t x : Fin d → ℝ) (a : Fin d) : image (homN R t) x a = (R *ᵥ x) a + t a := by
  simp [image, Matrix.mulVec, dotProduct]

/-- the result takes a point to the image of the point about the first centroid, moved to the second centroid -/
theorem image_moveBack (v0 v1 : Fin d → Fin n → ℝ) (R : Matrix (Fin d) (Fin d) ℝ) (j : Fin n) (a : Fin d) :
    image (moveBack v0 v1 (homN R 0)) (fun b => v0 b j) a = (R * centred v0) a j - negMean v1 a := by
  rw [moveBack_homN, image_homN, Matrix.mul_apply]
  simp only [Matrix.mulVec, dotProduct, centred, mul_add, Finset.sum_add_distrib]
  ring

theorem centred_sum (hn : 0 < n) (v : Fin d → Fin n → ℝ) (a : Fin d) : ∑ j, centred v a j = 0 := by
  have : (n : ℝ) ≠ 0 := by positivity
  simp only [centred, negMean, Finset.sum_add_distrib, Finset.sum_const, Finset.card_univ, Fintype.card_fin, nsmul_eq_mul]
  field_simp
  ring

/-! the sum of the squares -/

/-- the sum of the squares of the entries -/
def frob (X : Matrix (Fin d) (Fin n) ℝ) : ℝ := ∑ j, ∑ a, X a j ^ 2

theorem frob_trace (X : Matrix (Fin d) (Fin n) ℝ) : frob X = (X * Xᵀ).trace := by
  simp only [frob, Matrix.trace, Matrix.diag, Matrix.mul_apply, transpose_apply, pow_two]
  rw [Finset.sum_comm]

theorem frob_nonneg (X : Matrix (Fin d) (Fin n) ℝ) : 0 ≤ frob X := Finset.sum_nonneg fun _ _ => Finset.sum_nonneg fun _ _ => sq_nonneg _

theorem frob_eq_zero {X : Matrix (Fin d) (Fin n) ℝ} (h : frob X ≤ 0) (a : Fin d) (j : Fin n) : X a j = 0 := by
  have h0 : frob X = 0 := le_antisymm h (frob_nonneg X)
  have h1 := (Finset.sum_eq_zero_iff_of_nonneg fun j _ => Finset.sum_nonneg fun a _ => sq_nonneg (X a j)).1 h0 j (Finset.mem_univ j)
  have h2 := (Finset.sum_eq_zero_iff_of_nonneg fun a _ => sq_nonneg (X a j)).1 h1 a (Finset.mem_univ a)
  exact pow_eq_zero_iff two_ne_zero |>.1 h2

/-- the covariance of the two sets with a rotation -/
def covar (v0 v1 : Matrix (Fin d) (Fin n) ℝ) (R : Matrix (Fin d) (Fin d) ℝ) : ℝ := (v1 * v0ᵀ * Rᵀ).trace

theorem frob_rot {R : Matrix (Fin d) (Fin d) ℝ} (hR : Rᵀ * R = 1) (v0 v1 : Matrix (Fin d) (Fin n) ℝ) :
    frob (R * v0 - v1) = frob v0 + frob v1 - 2 * covar v0 v1 R := by
  have h1 : (R * v0 * (R * v0)ᵀ).trace = (v0 * v0ᵀ).trace := by
    rw [transpose_mul, Matrix.trace_mul_comm, Matrix.mul_assoc, ← Matrix.mul_assoc Rᵀ, hR, Matrix.one_mul, Matrix.trace_mul_comm]
  have h2 : (v1 * (R * v0)ᵀ).trace = covar v0 v1 R := by rw [transpose_mul, ← Matrix.mul_assoc]; rfl
  have h3 : (R * v0 * v1ᵀ).trace = covar v0 v1 R := by
    rw [← h2, ← Matrix.trace_transpose, transpose_mul, transpose_transpose]
  simp only [frob_trace, transpose_sub, Matrix.trace_sub, h1, h2, h3, Matrix.mul_sub, Matrix.sub_mul]
  ring

/-- the sum of the squares for any matrix with the last row of the identity is that about the centroids and that of the centroids -/
theorem sqDist_split (hn : 0 < n) (R : Matrix (Fin d) (Fin d) ℝ) (t : Fin d → ℝ) (v0 v1 : Fin d → Fin n → ℝ) :
    frob (R * centred v0 - centred v1) ≤ sqDist (homN R t) v0 v1 := by
  obtain ⟨c, hc⟩ : ∃ c : Fin d → ℝ, c = fun a => t a - (R *ᵥ negMean v0) a + negMean v1 a := ⟨_, rfl⟩
  have e : ∀ a j, image (homN R t) (fun b => v0 b j) a - v1 a j = (R * centred v0 - centred v1) a j + c a := by
    intro a j
    rw [image_homN, Matrix.sub_apply, Matrix.mul_apply, hc]
    simp only [Matrix.mulVec, dotProduct, centred, mul_add, Finset.sum_add_distrib]
    ring
  have hz : ∀ a, ∑ j, (R * centred v0 - centred v1) a j = 0 := by
    intro a
    simp only [Matrix.sub_apply, Finset.sum_sub_distrib, centred_sum hn, Matrix.mul_apply]
    rw [Finset.sum_comm]
    simp [← Finset.mul_sum, centred_sum hn]
  have hs : sqDist (homN R t) v0 v1 = frob (R * centred v0 - centred v1) + ∑ a, n * c a ^ 2 := by
    unfold sqDist frob
    rw [Finset.sum_comm, Finset.sum_comm (s := Finset.univ) (t := Finset.univ) (f := fun j a => (R * centred v0 - centred v1) a j ^ 2),
      ← Finset.sum_add_distrib]
    refine Finset.sum_congr rfl fun a _ => ?_
    have : ∀ j, (image (homN R t) (fun b => v0 b j) a - v1 a j) ^ 2 =
        (R * centred v0 - centred v1) a j ^ 2 + 2 * c a * (R * centred v0 - centred v1) a j + c a ^ 2 := fun j => by rw [e]; ring
    simp only [this, Finset.sum_add_distrib, ← Finset.mul_sum, hz, Finset.sum_const, Finset.card_univ, Fintype.card_fin, nsmul_eq_mul]
    ring
  rw [hs]
  have : 0 ≤ ∑ a, (n : ℝ) * c a ^ 2 := Finset.sum_nonneg fun _ _ => by positivity
  linarith

theorem sqDist_moveBack (v0 v1 : Fin d → Fin n → ℝ) (R : Matrix (Fin d) (Fin d) ℝ) :
    sqDist (moveBack v0 v1 (homN R 0)) v0 v1 = frob (R * centred v0 - centred v1) := by
  unfold sqDist frob
  refine Finset.sum_congr rfl fun j _ => Finset.sum_congr rfl fun a _ => ?_
  rw [image_moveBack, Matrix.sub_apply]
  simp only [centred]
  ring

/-! the rotation of Kabsch -/

theorem svd_square {A u vh : Matrix (Fin d) (Fin d) ℝ} {s : Nat → ℝ} (h : IsSvd A u s vh) : A = u * diagonal (fun k : Fin d => s k) * vh := by
  ext i j
  rw [h.2.2.2.2, Matrix.mul_apply]
  simp only [Matrix.mul_diagonal]
  exact Fintype.sum_equiv (finCongr (min_self d)) _ _ fun k => rfl

theorem rotN_right {R : Matrix (Fin d) (Fin d) ℝ} (h : IsRotN R) : R * Rᵀ = 1 := mul_eq_one_comm.1 h.1

theorem kabsch_spec {lib : RegLib} (hl : IsRegLib lib) (hd : 0 < d) (v0 v1 : Matrix (Fin d) (Fin n) ℝ) :
    IsRotN (kabsch lib hd v0 v1) ∧ ∀ R, IsRotN R → covar v0 v1 R ≤ covar v0 v1 (kabsch lib hd v0 v1) := by
  obtain ⟨r, hr⟩ : ∃ r, r = lib.svd d d (v1 * v0.transpose) := ⟨_, rfl⟩
  have hsvd := hl.1 d d (v1 * v0.transpose)
  rw [← hr] at hsvd
  have hA := svd_square hsvd
  obtain ⟨hu, hv, hs0, hsa, -⟩ := hsvd
  have hu' : r.u * r.uᵀ = 1 := mul_eq_one_comm.1 hu
  have hv' : r.vhᵀ * r.vh = 1 := mul_eq_one_comm.1 hv
  obtain ⟨S, hS⟩ : ∃ S : Fin d → ℝ, S = fun k : Fin d => r.s k := ⟨_, rfl⟩
  rw [← hS] at hA
  let last : Fin d := ⟨d - 1, by omega⟩
  have hcov : ∀ R, covar v0 v1 R = ∑ i, S i * (r.vh * Rᵀ * r.u) i i := by
    intro R
    unfold covar
    rw [hA, Matrix.mul_assoc, Matrix.mul_assoc, Matrix.trace_mul_comm, Matrix.mul_assoc]
    simp only [Matrix.trace, Matrix.diag, Matrix.diagonal_mul]
  have hQ : ∀ R, IsRotN R → (r.vh * Rᵀ * r.u)ᵀ * (r.vh * Rᵀ * r.u) = 1 := by
    intro R hR
    rw [transpose_mul, transpose_mul, transpose_transpose]
    calc r.uᵀ * (R * r.vhᵀ) * (r.vh * Rᵀ * r.u) = r.uᵀ * (R * (r.vhᵀ * r.vh) * Rᵀ) * r.u := by simp only [Matrix.mul_assoc]
      _ = 1 := by rw [hv', Matrix.mul_one, rotN_right hR, Matrix.mul_one, hu]
  have hdu : r.u.det * r.u.det = 1 := by
    have := congrArg Matrix.det hu
    rwa [det_mul, det_transpose, det_one] at this
  have hdv : r.vh.det * r.vh.det = 1 := by
    have := congrArg Matrix.det hv
    rwa [det_mul, det_transpose, det_one] at this
  have hdet : ∀ R, IsRotN R → (r.vh * Rᵀ * r.u).det = (r.u * r.vh).det := by
    intro R hR
    rw [det_mul, det_mul, det_mul, det_transpose, hR.2]; ring
  by_cases hneg : (r.u * r.vh).det < 0
  · have hm1 : (r.u * r.vh).det = -1 := by
      rw [det_mul] at hneg ⊢
      rcases mul_self_eq_one_iff.1 hdu with h1 | h1 <;> rcases mul_self_eq_one_iff.1 hdv with h2 | h2 <;> rw [h1, h2] at hneg ⊢ <;> first | (norm_num; done) | (exfalso; revert hneg; norm_num)
    have hk : kabsch lib hd v0 v1 = r.u * diagonal (fun k => if k = last then (-1 : ℝ) else 1) * r.vh := by
      unfold kabsch
      simp only [← hr]
      rw [if_pos hneg]
      have e : diagonal (fun k => if k = last then (-1 : ℝ) else 1) = 1 - diagonal (fun k => if k = last then (2 : ℝ) else 0) := by
        rw [← diagonal_one, diagonal_sub]
        congr 1
        ext k
        by_cases h : k = last <;> simp [h] <;> norm_num
      rw [e, Matrix.mul_sub, Matrix.sub_mul, Matrix.mul_one]
      congr 1
      ext a b
      rw [Matrix.mul_apply]
      simp only [Matrix.mul_diagonal, Matrix.of_apply]
      rw [Finset.sum_eq_single last (fun k _ h => by simp [h]) (fun h => absurd (Finset.mem_univ _) h)]
      simp only [if_true, last]
      ring
    obtain ⟨D, hD⟩ : ∃ D, D = diagonal (fun k : Fin d => if k = last then (-1 : ℝ) else 1) := ⟨_, rfl⟩
    rw [← hD] at hk
    have hDt : Dᵀ = D := by rw [hD, diagonal_transpose]
    have hDD : D * D = 1 := by
      rw [hD, diagonal_mul_diagonal, ← diagonal_one]
      congr 1; ext k; split <;> norm_num
    have hDdet : D.det = -1 := by
      rw [hD, det_diagonal, Finset.prod_ite_eq' ]
      simp
    have hrot : IsRotN (kabsch lib hd v0 v1) := by
      rw [hk]
      constructor
      · rw [transpose_mul, transpose_mul, hDt]
        calc r.vhᵀ * (D * r.uᵀ) * (r.u * D * r.vh) = r.vhᵀ * (D * (r.uᵀ * r.u) * D) * r.vh := by simp only [Matrix.mul_assoc]
          _ = 1 := by rw [hu, Matrix.mul_one, hDD, Matrix.mul_one, hv']
      · rw [det_mul, det_mul, hDdet]
        rw [det_mul] at hm1
        linarith
    refine ⟨hrot, fun R hR => ?_⟩
    rw [hcov R, hcov (kabsch lib hd v0 v1)]
    have hq : r.vh * (kabsch lib hd v0 v1)ᵀ * r.u = D := by
      rw [hk, transpose_mul, transpose_mul, hDt]
      calc r.vh * (r.vhᵀ * (D * r.uᵀ)) * r.u = (r.vh * r.vhᵀ) * D * (r.uᵀ * r.u) := by simp only [Matrix.mul_assoc]
        _ = D := by rw [hv, hu, Matrix.one_mul, Matrix.mul_one]
    rw [hq]
    have hb := orth_weighted_neg (hQ R hR) ((hdet R hR).trans hm1) S last (by rw [hS]; exact hs0 _) fun i => by
      rw [hS]; exact hsa _ _ (by simp only [last]; omega)
    refine hb.trans (le_of_eq ?_)
    have : ∀ i, S i * D i i = S i - if i = last then 2 * S last else 0 := by
      intro i
      rw [hD, diagonal_apply_eq]
      by_cases h : i = last <;> simp [h]; ring
    simp only [this, Finset.sum_sub_distrib, Finset.sum_ite_eq', Finset.mem_univ, if_true]
  · have hp1 : (r.u * r.vh).det = 1 := by
      rw [det_mul] at hneg ⊢
      rcases mul_self_eq_one_iff.1 hdu with h1 | h1 <;> rcases mul_self_eq_one_iff.1 hdv with h2 | h2 <;> rw [h1, h2] at hneg ⊢ <;> first | (norm_num; done) | (exfalso; revert hneg; norm_num)
    have hk : kabsch lib hd v0 v1 = r.u * r.vh := by
      unfold kabsch
      simp only [← hr]
      rw [if_neg hneg]
    have hrot : IsRotN (kabsch lib hd v0 v1) := by
      rw [hk]
      refine ⟨?_, hp1⟩
      rw [transpose_mul]
      calc r.vhᵀ * r.uᵀ * (r.u * r.vh) = r.vhᵀ * (r.uᵀ * r.u) * r.vh := by simp only [Matrix.mul_assoc]
        _ = 1 := by rw [hu, Matrix.mul_one, hv']
    refine ⟨hrot, fun R hR => ?_⟩
    rw [hcov R, hcov (kabsch lib hd v0 v1)]
    have hq : r.vh * (kabsch lib hd v0 v1)ᵀ * r.u = 1 := by
      rw [hk, transpose_mul]
      calc r.vh * (r.vhᵀ * r.uᵀ) * r.u = (r.vh * r.vhᵀ) * (r.uᵀ * r.u) := by simp only [Matrix.mul_assoc]
        _ = 1 := by rw [hv, hu, Matrix.one_mul]
    rw [hq]
    have hb := orth_weighted_le (hQ R hR) S (fun i => by rw [hS]; exact hs0 _)
    simpa using hb

end Electrode
