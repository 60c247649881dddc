import Verif.Model.Vectors
import Verif.Props.RandomRot
import Mathlib.Analysis.InnerProductSpace.PiL2
import Mathlib.Geometry.Euclidean.Angle.Unoriented.Basic
import Mathlib.Geometry.Euclidean.Angle.Unoriented.TriangleInequality
import Mathlib.LinearAlgebra.CrossProduct

/-
C111: lengths, directions, angles and products of vectors, and products of matrices.
-/
namespace Electrode

open Matrix InnerProductGeometry
open scoped Real

/-- a vector of Euclidean space -/
def Spec.evec {n : Nat} (v : Fin n → ℝ) : EuclideanSpace ℝ (Fin n) := WithLp.toLp 2 v

open Spec

theorem evec_inner {n : Nat} (v w : Fin n → ℝ) : inner ℝ (evec v) (evec w) = ∑ i, v i * w i := by
  simp [evec, PiLp.inner_apply, mul_comm]

theorem evec_ne {n : Nat} {v : Fin n → ℝ} : evec v ≠ 0 ↔ v ≠ 0 := by
  simp [evec]

/-- C111: `vector_norm` is the length. -/
theorem c111_norm {n : Nat} (v : Fin n → ℝ) : vectorNorm v = ‖evec v‖ := by
  rw [EuclideanSpace.norm_eq, vectorNorm]
  congr 1
  refine Finset.sum_congr rfl fun i _ => ?_
  rw [Real.norm_eq_abs, sq_abs, sq]
  rfl

/-- C111: with an axis it is the length of each vector along it; without one the length of all entries together. -/
theorem c111_norm_axis {m n : Nat} (A : Fin m → Fin n → ℝ) :
    (∀ j, vectorNormAxis A 0 j = ‖evec fun i => A i j‖) ∧ (∀ i, vectorNormAxis A 1 i = ‖evec fun j => A i j‖) ∧
      vectorNormAll A ^ 2 = ∑ i, ‖evec fun j => A i j‖ ^ 2 := by
  refine ⟨fun j => c111_norm fun i => A i j, fun i => c111_norm fun j => A i j, ?_⟩
  have h : ∀ i, ‖evec fun j => A i j‖ ^ 2 = ∑ j, A i j * A i j := by
    intro i
    rw [← c111_norm, vectorNorm, Real.sq_sqrt (Finset.sum_nonneg fun _ _ => mul_self_nonneg _)]
  simp only [h]
  rw [vectorNormAll, Real.sq_sqrt (Finset.sum_nonneg fun _ _ => Finset.sum_nonneg fun _ _ => mul_self_nonneg _)]

/-- C111: `unit_vector` gives the vector of length one in the same direction. -/
theorem c111_unit {n : Nat} {v : Fin n → ℝ} (h : v ≠ 0) :
    ∃ u, unitVectorNan v = some u ∧ ‖evec u‖ = 1 ∧ ∃ c > (0 : ℝ), u = c • v := by
  have hn : 0 < ‖evec v‖ := norm_pos_iff.2 (evec_ne.2 h)
  have e : √(∑ i, v i * v i) = ‖evec v‖ := c111_norm v
  refine ⟨fun i => v i / ‖evec v‖, ?_, ?_, ‖evec v‖⁻¹, inv_pos.2 hn, ?_⟩
  · rw [unitVectorNan, e, if_neg (fun h => hn.ne' h.2)]
  · have : evec (fun i => v i / ‖evec v‖) = ‖evec v‖⁻¹ • evec v := by
      ext i
      simp [evec, div_eq_inv_mul]
    rw [this, norm_smul, norm_inv, norm_norm, inv_mul_cancel₀ hn.ne']
  · funext i
    simp [div_eq_inv_mul]

/-- C111: for a zero vector it gives nan, unless it has no components. -/
theorem c111_unit_zero (n : Nat) : unitVectorNan (0 : Fin (n + 1) → ℝ) = none ∧ unitVectorNan (0 : Fin 0 → ℝ) = some 0 := by
  constructor
  · simp [unitVectorNan]
  · rw [unitVectorNan, if_neg (by simp)]
    congr
    funext i
    exact i.elim0

/-- C111: with an axis each vector along it is replaced by its unit vector. -/
theorem c111_unit_axis {m n : Nat} (A : Fin m → Fin n → ℝ) :
    (∀ j, (fun i => A i j) ≠ 0 → unitVectorNan (fun i => A i j) = some fun i => unitVectorAxis A 0 i j) ∧
      ∀ i, (fun j => A i j) ≠ 0 → unitVectorNan (fun j => A i j) = some fun j => unitVectorAxis A 1 i j := by
  constructor
  all_goals
    intro k hk
    have hn := norm_pos_iff.2 (evec_ne.2 hk)
    rw [← c111_norm, vectorNorm] at hn
    rw [unitVectorNan, if_neg (fun h => hn.ne' h.2)]
    rfl

/-! ### angles -/

/-- C111: `angle_between_vectors` gives the angle of any two vectors that are not zero, and that of the lines along them if they are
not directed. -/
theorem c111_angle {n : Nat} {v w : Fin n → ℝ} (hv : v ≠ 0) (hw : w ≠ 0) :
    angleBetween v w true = some (angle (evec v) (evec w)) ∧
      angleBetween v w false = some (min (angle (evec v) (evec w)) (π - angle (evec v) (evec w))) := by
  have hv' := norm_pos_iff.2 (evec_ne.2 hv)
  have hw' := norm_pos_iff.2 (evec_ne.2 hw)
  have hl : ‖evec v‖ * ‖evec w‖ ≠ 0 := (mul_pos hv' hw').ne'
  have hx := abs_real_inner_div_norm_mul_norm_le_one (evec v) (evec w)
  unfold angleBetween
  simp only [c111_norm, ← evec_inner, if_neg hl]
  obtain ⟨x, hxd⟩ : ∃ x, x = inner ℝ (evec v) (evec w) / (‖evec v‖ * ‖evec w‖) := ⟨_, rfl⟩
  unfold angle
  rw [← hxd] at hx ⊢
  obtain ⟨h1, h2⟩ := abs_le.1 hx
  constructor
  · simp [npArccos, h1, h2]
  · simp only [Bool.false_eq_true, if_false]
    rw [npArccos, if_pos ⟨by linarith [abs_nonneg x], hx⟩, ← Real.arccos_neg]
    congr 1
    rcases le_total 0 x with h | h
    · rw [abs_of_nonneg h, min_eq_left (Real.arccos_le_arccos (by linarith))]
    · rw [abs_of_nonpos h, min_eq_right (Real.arccos_le_arccos (by linarith))]

/-- C111: with a zero vector it gives nan. -/
theorem c111_angle_zero {n : Nat} {v w : Fin n → ℝ} (h : v = 0 ∨ w = 0) (directed : Bool) : angleBetween v w directed = none := by
  unfold angleBetween
  refine if_pos ?_
  rw [c111_norm, c111_norm]
  rcases h with rfl | rfl <;> simp [evec]

/-- C111: the angle is 0 exactly for the same direction, π for the opposite one, π/2 for perpendicular vectors; without directions it is
0 exactly for parallel vectors. -/
theorem c111_angle_cases {n : Nat} {v w : Fin n → ℝ} (hv : v ≠ 0) (hw : w ≠ 0) :
    (angleBetween v w true = some 0 ↔ ∃ r > (0 : ℝ), w = r • v) ∧ (angleBetween v w true = some π ↔ ∃ r < (0 : ℝ), w = r • v) ∧
      (angleBetween v w true = some (π / 2) ↔ ∑ i, v i * w i = 0) ∧ (angleBetween v w false = some 0 ↔ ∃ r : ℝ, w = r • v) ∧
      (angleBetween v w false = some (π / 2) ↔ ∑ i, v i * w i = 0) := by
  obtain ⟨h1, h2⟩ := c111_angle hv hw
  have e : ∀ r : ℝ, evec w = r • evec v ↔ w = r • v := by
    intro r
    constructor
    · intro h
      funext i
      exact congrArg (fun z : EuclideanSpace ℝ (Fin n) => z i) h
    · rintro rfl
      rfl
  have z0 : angle (evec v) (evec w) = 0 ↔ ∃ r > (0 : ℝ), w = r • v := by
    rw [angle_eq_zero_iff]
    simp only [e, evec_ne]
    exact and_iff_right hv
  have zp : angle (evec v) (evec w) = π ↔ ∃ r < (0 : ℝ), w = r • v := by
    rw [angle_eq_pi_iff]
    simp only [e, evec_ne]
    exact and_iff_right hv
  have zh : angle (evec v) (evec w) = π / 2 ↔ ∑ i, v i * w i = 0 := by
    rw [← inner_eq_zero_iff_angle_eq_pi_div_two, evec_inner]
  have n0 := angle_nonneg (evec v) (evec w)
  have n1 := angle_le_pi (evec v) (evec w)
  rw [h1, h2]
  simp only [Option.some.injEq]
  refine ⟨z0, zp, zh, ?_, ?_⟩
  · constructor
    · intro h
      rcases min_choice (angle (evec v) (evec w)) (π - angle (evec v) (evec w)) with c | c <;> rw [c] at h
      · obtain ⟨r, -, hr⟩ := z0.1 h
        exact ⟨r, hr⟩
      · obtain ⟨r, -, hr⟩ := zp.1 (by linarith)
        exact ⟨r, hr⟩
    · rintro ⟨r, hr⟩
      rcases lt_trichotomy r 0 with h | h | h
      · rw [zp.2 ⟨r, h, hr⟩, sub_self, min_eq_right Real.pi_pos.le]
      · rw [h, zero_smul] at hr
        exact absurd hr hw
      · rw [z0.2 ⟨r, h, hr⟩, sub_zero, min_eq_left Real.pi_pos.le]
  · rw [← zh]
    constructor
    · intro h
      rcases min_choice (angle (evec v) (evec w)) (π - angle (evec v) (evec w)) with c | c <;> rw [c] at h <;> linarith
    · intro h
      rw [h, show π - π / 2 = π / 2 by ring, min_self]

/-- C111: the undirected angle is at most π/2 and does not depend on the directions of the vectors. -/
theorem c111_undirected {n : Nat} {v w : Fin n → ℝ} (hv : v ≠ 0) (hw : w ≠ 0) :
    (∃ a, angleBetween v w false = some a ∧ 0 ≤ a ∧ a ≤ π / 2) ∧ angleBetween (-v) w false = angleBetween v w false ∧
      angleBetween v (-w) false = angleBetween v w false := by
  have n0 := angle_nonneg (evec v) (evec w)
  have n1 := angle_le_pi (evec v) (evec w)
  have e : ∀ v : Fin n → ℝ, evec (-v) = -evec v := fun v => rfl
  refine ⟨⟨_, (c111_angle hv hw).2, le_min n0 (by linarith), ?_⟩, ?_, ?_⟩
  · rcases le_total (angle (evec v) (evec w)) (π / 2) with h | h
    · exact (min_le_left _ _).trans h
    · exact (min_le_right _ _).trans (by linarith)
  · rw [(c111_angle hv hw).2, (c111_angle (neg_ne_zero.2 hv) hw).2, e, angle_neg_left, sub_sub_cancel, min_comm]
  · rw [(c111_angle hv hw).2, (c111_angle hv (neg_ne_zero.2 hw)).2, e, angle_neg_right, sub_sub_cancel, min_comm]

/-- C111: the angle is symmetric and never exceeds the sum of the angles with a third vector. -/
theorem c111_triangle {n : Nat} {u v w : Fin n → ℝ} (hu : u ≠ 0) (hv : v ≠ 0) (hw : w ≠ 0) (directed : Bool) :
    angleBetween u v directed = angleBetween v u directed ∧
      ∃ a b c, angleBetween u w directed = some a ∧ angleBetween u v directed = some b ∧ angleBetween v w directed = some c ∧ a ≤ b + c := by
  have t := angle_le_angle_add_angle (evec u) (evec v) (evec w)
  have s := angle_comm (evec u) (evec v)
  cases directed
  · refine ⟨by rw [(c111_angle hu hv).2, (c111_angle hv hu).2, s], _, _, _, (c111_angle hu hw).2, (c111_angle hu hv).2, (c111_angle hv hw).2, ?_⟩
    have t1 := angle_le_angle_add_angle (evec u) (-evec v) (evec w)
    have t2 := angle_le_angle_add_angle (evec u) (evec v) (-evec w)
    have t3 := angle_le_angle_add_angle (evec u) (-evec v) (-evec w)
    rw [angle_neg_right, angle_neg_left] at t1
    rw [angle_neg_right, angle_neg_right] at t2
    rw [angle_neg_right, angle_neg_right, angle_neg_neg] at t3
    rcases min_choice (angle (evec u) (evec v)) (π - angle (evec u) (evec v)) with c | c <;>
      rcases min_choice (angle (evec v) (evec w)) (π - angle (evec v) (evec w)) with c' | c' <;> rw [c, c'] <;>
      first
        | exact (min_le_left _ _).trans (by linarith)
        | exact (min_le_right _ _).trans (by linarith)
  · exact ⟨by rw [(c111_angle hu hv).1, (c111_angle hv hu).1, s], _, _, _, (c111_angle hu hw).1, (c111_angle hu hv).1, (c111_angle hv hw).1, t⟩

/-- C111: lengths and angles do not change if both vectors are rotated or reflected. -/
theorem c111_invariant {n : Nat} {A : Matrix (Fin n) (Fin n) ℝ} (hA : A * Aᵀ = 1) (v w : Fin n → ℝ) (directed : Bool) :
    vectorNorm (A *ᵥ v) = vectorNorm v ∧ angleBetween (A *ᵥ v) (A *ᵥ w) directed = angleBetween v w directed := by
  have hA' : Aᵀ * A = 1 := mul_eq_one_comm.1 hA
  have h : ∀ v w : Fin n → ℝ, ∑ i, (A *ᵥ v) i * (A *ᵥ w) i = ∑ i, v i * w i := by
    intro v w
    change (A *ᵥ v) ⬝ᵥ (A *ᵥ w) = v ⬝ᵥ w
    rw [dotProduct_mulVec, vecMul_mulVec, hA', vecMul_one]
  have hn : ∀ v, vectorNorm (A *ᵥ v) = vectorNorm v := fun v => by rw [vectorNorm, vectorNorm, h]
  refine ⟨hn v, ?_⟩
  unfold angleBetween
  rw [h, hn, hn]

/-- C111: for arrays it is the angle of the columns, one by one, or of each column with the only one of the other array. -/
theorem c111_columns {m n : Nat} (A B : Fin m → Fin n → ℝ) (b : Fin m → Fin 1 → ℝ) (directed : Bool) :
    angleColumns A B directed = .ok (List.ofFn fun j => angleBetween (fun i => A i j) (fun i => B i j) directed) ∧
      angleColumns A b directed = .ok (List.ofFn fun j => angleBetween (fun i => A i j) (fun i => b i 0) directed) ∧
      angleColumns b A directed = .ok (List.ofFn fun j => angleBetween (fun i => b i 0) (fun i => A i j) directed) := by
  have hc : ∀ (A : Fin m → Fin n → ℝ) (j : Nat) (h : j < n), broadcastCol A j = fun i => A i ⟨j, h⟩ := by
    intro A j h
    funext i
    simp [broadcastCol, h]
  have h1 : ∀ j, broadcastCol b j = fun i => b i 0 := by
    intro j
    funext i
    unfold broadcastCol
    split
    · congr 1
      exact Fin.ext (by simp; omega)
    · simp
  refine ⟨?_, ?_, ?_⟩ <;> unfold angleColumns <;> rw [if_pos (by first | exact Or.inr (Or.inl rfl) | exact Or.inl rfl | exact Or.inr (Or.inr rfl))] <;> refine congrArg _ (List.ext_getElem (by simp <;> omega) fun j a b => ?_)
  · simp at a b
    simp [hc A j b, hc B j b]
  · simp at a b
    simp [hc A j b, h1]
  · simp at a b
    simp [hc A j b, h1]

/-- the angle of two columns that are perpendicular, and of one with itself -/
example : angleBetween ![1, 1] ![1, -1] true = some (π / 2) ∧ angleBetween ![1, 1] ![-2, -2] true = some π ∧
    angleBetween ![1, 1] ![-2, -2] false = some 0 := by
  have a : (![1, 1] : Fin 2 → ℝ) ≠ 0 := fun h => by simpa using congrFun h 0
  have b : (![1, -1] : Fin 2 → ℝ) ≠ 0 := fun h => by simpa using congrFun h 0
  have c : (![-2, -2] : Fin 2 → ℝ) ≠ 0 := fun h => by simpa using congrFun h 0
  refine ⟨(c111_angle_cases a b).2.2.1.2 (by simp), (c111_angle_cases a c).2.1.2 ⟨-2, by norm_num, ?_⟩,
    (c111_angle_cases a c).2.2.2.1.2 ⟨-2, ?_⟩⟩ <;> · ext i; fin_cases i <;> simp

/-! ### the vector product -/

theorem product_cross (v w : Fin 3 → ℝ) : vectorProduct v w = v ⨯₃ w := by
  rw [cross_apply]
  rfl

/-- C111: `vector_product` is perpendicular to both vectors, has the area of their parallelogram as length, and forms a right-handed
system with them. -/
theorem c111_product (v w : Fin 3 → ℝ) :
    v ⬝ᵥ vectorProduct v w = 0 ∧ w ⬝ᵥ vectorProduct v w = 0 ∧
      ‖evec (vectorProduct v w)‖ = ‖evec v‖ * ‖evec w‖ * Real.sin (angle (evec v) (evec w)) ∧
      (Matrix.of ![v, w, vectorProduct v w]).det = ‖evec (vectorProduct v w)‖ ^ 2 := by
  have hn : ∀ v : Fin 3 → ℝ, ‖evec v‖ ^ 2 = v ⬝ᵥ v := by
    intro v
    rw [← c111_norm, vectorNorm, Real.sq_sqrt (Finset.sum_nonneg fun _ _ => mul_self_nonneg _)]
    rfl
  refine ⟨by rw [product_cross, dot_self_cross], by rw [product_cross, dot_cross_self], ?_, ?_⟩
  · have h0 : 0 ≤ ‖evec v‖ * ‖evec w‖ * Real.sin (angle (evec v) (evec w)) :=
      mul_nonneg (mul_nonneg (norm_nonneg _) (norm_nonneg _)) (sin_angle_nonneg _ _)
    refine (sq_eq_sq₀ (norm_nonneg _) h0).1 ?_
    have hc := cos_angle_mul_norm_mul_norm (evec v) (evec w)
    rw [evec_inner] at hc
    have hc : Real.cos (angle (evec v) (evec w)) * (‖evec v‖ * ‖evec w‖) = v ⬝ᵥ w := hc
    have hs := Real.sin_sq_add_cos_sq (angle (evec v) (evec w))
    have : (‖evec v‖ * ‖evec w‖ * Real.sin (angle (evec v) (evec w))) ^ 2 = ‖evec v‖ ^ 2 * ‖evec w‖ ^ 2 - (v ⬝ᵥ w) ^ 2 := by
      rw [← hc]
      linear_combination (‖evec v‖ * ‖evec w‖) ^ 2 * hs
    rw [this, hn, hn, hn, product_cross, cross_dot_cross, dotProduct_comm w v]
    ring
  · rw [hn, Matrix.det_fin_three]
    simp [vectorProduct, vcross, dotProduct, Fin.sum_univ_three]
    ring

/-- C111: it turns with the vectors. -/
theorem c111_product_rotation {R : Matrix (Fin 3) (Fin 3) ℝ} (h : IsRotation R) (v w : Fin 3 → ℝ) :
    vectorProduct (R *ᵥ v) (R *ᵥ w) = R *ᵥ vectorProduct v w := by
  have e : vectorProduct (R *ᵥ v) (R *ᵥ w) = R.adjugateᵀ *ᵥ vectorProduct v w := by
    rw [adjugate_fin_three]
    ext i
    fin_cases i <;> simp [vectorProduct, vcross, mulVec, dotProduct, Fin.sum_univ_three] <;> ring
  rw [e, rot_adjugate h, transpose_transpose]

/-- C111: it is zero exactly if the vectors are parallel or one of them is zero. -/
theorem c111_product_zero (v w : Fin 3 → ℝ) : vectorProduct v w = 0 ↔ v = 0 ∨ ∃ r : ℝ, w = r • v := by
  constructor
  · intro h
    by_cases hv : v = 0
    · exact Or.inl hv
    · refine Or.inr ⟨(v ⬝ᵥ w) / (v ⬝ᵥ v), ?_⟩
      have hp : v ⬝ᵥ v ≠ 0 := fun h0 => hv (dotProduct_self_eq_zero.1 h0)
      have h0 : v 1 * w 2 - v 2 * w 1 = 0 := congrFun h 0
      have h1 : v 2 * w 0 - v 0 * w 2 = 0 := congrFun h 1
      have h2 : v 0 * w 1 - v 1 * w 0 = 0 := congrFun h 2
      have e : ∀ i, w i * (v ⬝ᵥ v) = (v ⬝ᵥ w) * v i := by
        intro i
        simp only [dotProduct, Fin.sum_univ_three]
        fin_cases i <;> simp only [Fin.zero_eta, Fin.mk_one, Fin.reduceFinMk]
        · linear_combination v 2 * h1 - v 1 * h2
        · linear_combination v 0 * h2 - v 2 * h0
        · linear_combination v 1 * h0 - v 0 * h1
      funext i
      rw [Pi.smul_apply, smul_eq_mul, div_mul_eq_mul_div, eq_div_iff hp, e]
  · rintro (rfl | ⟨r, rfl⟩)
    · ext i
      fin_cases i <;> simp [vectorProduct, vcross]
    · ext i
      fin_cases i <;> simp [vectorProduct, vcross] <;> ring

/-! ### products of matrices -/

theorem concat_from (M : Matrix (Fin 4) (Fin 4) ℝ) (l : List (Matrix (Fin 4) (Fin 4) ℝ)) :
    l.foldl (fun M i => M * i) M = M * concatMatrices l := by
  induction l generalizing M with
  | nil => simp [concatMatrices]
  | cons a t ih =>
    have h : concatMatrices (a :: t) = a * concatMatrices t := by
      rw [concatMatrices, List.foldl_cons, ih (1 * a), one_mul]
    rw [List.foldl_cons, ih, h, Matrix.mul_assoc]

/-- C111: `concatenate_matrices` applies the last transformation first. -/
theorem c111_concat (l : List (Matrix (Fin 4) (Fin 4) ℝ)) (x : Fin 4 → ℝ) :
    concatMatrices l *ᵥ x = l.foldr (fun M y => M *ᵥ y) x := by
  induction l with
  | nil => simp [concatMatrices]
  | cons a t ih => rw [concatMatrices, List.foldl_cons, concat_from, one_mul, ← mulVec_mulVec, ih, List.foldr_cons]

/-- C111: parts can be concatenated before, a single matrix stays as it is, and the inverses in the reverse order undo it. -/
theorem c111_concat_parts (l l' : List (Matrix (Fin 4) (Fin 4) ℝ)) (M : Matrix (Fin 4) (Fin 4) ℝ) :
    concatMatrices (l ++ l') = concatMatrices [concatMatrices l, concatMatrices l'] ∧ concatMatrices [M] = M ∧
      ((∀ M ∈ l, IsUnit M.det) → concatMatrices l * concatMatrices (l.reverse.map fun M => M⁻¹) = 1) := by
  have happ : ∀ l l' : List (Matrix (Fin 4) (Fin 4) ℝ), concatMatrices (l ++ l') = concatMatrices l * concatMatrices l' := by
    intro l l'
    rw [concatMatrices, List.foldl_append, concat_from]
    rfl
  have hone : ∀ M, concatMatrices [M] = M := fun M => by simp [concatMatrices]
  refine ⟨?_, hone M, ?_⟩
  · rw [happ, show [concatMatrices l, concatMatrices l'] = [concatMatrices l] ++ [concatMatrices l'] from rfl, happ, hone, hone]
  · intro h
    induction l with
    | nil => simp [concatMatrices]
    | cons a t ih =>
      rw [List.reverse_cons, List.map_append, happ, List.map_singleton, hone, show a :: t = [a] ++ t from rfl, happ, hone, Matrix.mul_assoc,
        ← Matrix.mul_assoc (concatMatrices t), ih (fun M hM => h M (List.mem_cons_of_mem _ hM)), Matrix.one_mul,
        Matrix.mul_nonsing_inv _ (h a List.mem_cons_self)]

/-- two translations along the third axis and a scaling: the translation by one is applied first -/
example : concatMatrices [Matrix.diagonal ![2, 2, 2, 1], translationMatrix ![0, 0, 1]] *ᵥ ![0, 0, 0, 1] = ![0, 0, 2, 1] := by
  rw [c111_concat]
  ext i
  fin_cases i <;> simp [translationMatrix, affine, mulVec, dotProduct, Fin.sum_univ_four, Matrix.diagonal]

/-! ### the same quaternion -/

theorem vecClose_refl (q : Quat) : vecClose q q := by
  intro i
  rw [sub_self, abs_zero]
  positivity

/-- C111: `is_same_quaternion` is true for unit quaternions of the same rotation. -/
theorem c111_same {p q : Quat} (hp : quatDot p = 1) (hq : quatDot q = 1) (h : quatMatrix p = quatMatrix q) : isSameQuat p q = true := by
  unfold isSameQuat
  rcases (c68_sign p q hp hq).1 h with rfl | rfl
  · simp [vecClose_refl]
  · have : vecClose (-q) fun i => -q i := vecClose_refl (-q)
    simp [this]

theorem quat_le_one {q : Quat} (h : quatDot q = 1) (i : Fin 4) : |q i| ≤ 1 := by
  have : q i * q i ≤ quatDot q := Finset.single_le_sum (f := fun a => q a * q a) (fun _ _ => mul_self_nonneg _) (Finset.mem_univ i)
  rw [h] at this
  exact abs_le_one_iff_mul_self_le_one.2 this

theorem homMat_close {p q : Quat} (hp : quatDot p = 1) (hq : quatDot q = 1) (h : vecClose p q) (i j : Fin 3) :
    |homMat p i j - homMat q i j| ≤ 1 / 10 ^ 4 := by
  have hd : ∀ a, |p a - q a| ≤ 1 / 10 ^ 8 + 1 / 10 ^ 5 := fun a => (h a).trans (by linarith [quat_le_one hq a])
  have hpr : ∀ a b, |p a * p b - q a * q b| ≤ 2 * (1 / 10 ^ 8 + 1 / 10 ^ 5) := by
    intro a b
    have e : p a * p b - q a * q b = (p a - q a) * p b + q a * (p b - q b) := by ring
    rw [e]
    refine (abs_add_le _ _).trans ?_
    rw [abs_mul, abs_mul]
    have h1 := mul_le_mul (hd a) (quat_le_one hp b) (abs_nonneg _) (by norm_num)
    have h2 := mul_le_mul (quat_le_one hq a) (hd b) (abs_nonneg _) zero_le_one
    linarith
  have m : ∀ a b, -(2 * (1 / 10 ^ 8 + 1 / 10 ^ 5)) ≤ p a * p b - q a * q b ∧ p a * p b - q a * q b ≤ 2 * (1 / 10 ^ 8 + 1 / 10 ^ 5) :=
    fun a b => abs_le.1 (hpr a b)
  fin_cases i <;> fin_cases j <;> simp only [homMat, Fin.zero_eta, Fin.mk_one, Fin.reduceFinMk, of_apply, cons_val_zero, cons_val_one, cons_val] <;>
    rw [abs_le] <;> constructor <;>
    linarith [m 0 0, m 1 1, m 2 2, m 3 3, m 1 2, m 3 0, m 1 3, m 2 0, m 2 3, m 1 0]

/-- C111: if it is true for unit quaternions, their rotations differ by at most 1e-4 in each entry. -/
theorem c111_same_close {p q : Quat} (hp : quatDot p = 1) (hq : quatDot q = 1) (h : isSameQuat p q = true) (i j : Fin 4) :
    |quatMatrix p i j - quatMatrix q i j| ≤ 1 / 10 ^ 4 := by
  have hc : ∀ i j : Fin 3, |homMat p i j - homMat q i j| ≤ 1 / 10 ^ 4 := by
    unfold isSameQuat at h
    simp only [Bool.or_eq_true, decide_eq_true_eq] at h
    rcases h with h | h
    · exact homMat_close hp hq h
    · have hn : homMat (fun i => -q i) = homMat q := by
        ext i j
        fin_cases i <;> fin_cases j <;> simp [homMat]
      have hq' : quatDot (fun i => -q i) = 1 := by
        rw [← hq]
        simp [quatDot]
      rw [← hn]
      exact homMat_close hp hq' h
  rw [quatMatrix_unit _ hp, quatMatrix_unit _ hq]
  obtain ⟨a1, a2, a3⟩ := homog_spec (homMat p)
  obtain ⟨b1, b2, b3⟩ := homog_spec (homMat q)
  refine Fin.lastCases ?_ (fun i => ?_) i <;> refine Fin.lastCases ?_ (fun j => ?_) j
  · change |homog (homMat p) 3 3 - homog (homMat q) 3 3| ≤ _
    rw [a3, b3]
    norm_num
  · change |homog (homMat p) 3 j.castSucc - homog (homMat q) 3 j.castSucc| ≤ _
    rw [(a2 j).2, (b2 j).2]
    norm_num
  · change |homog (homMat p) i.castSucc 3 - homog (homMat q) i.castSucc 3| ≤ _
    rw [(a2 i).1, (b2 i).1]
    norm_num
  · rw [a1, b1]
    exact hc i j

/-- C111 fails: it depends on the order of its arguments. -/
theorem c111_same_order : ∃ p q : Quat, quatDot p = 1 ∧ quatDot q = 1 ∧ isSameQuat p q = true ∧ isSameQuat q p = false := by
  obtain ⟨t, ht⟩ : ∃ t : ℝ, t = 5.00002 / 10 ^ 9 := ⟨_, rfl⟩
  refine ⟨![1, 0, 0, 0], ![(1 - t ^ 2) / (1 + t ^ 2), 2 * t / (1 + t ^ 2), 0, 0], by simp [quatDot_eq], ?_, ?_, ?_⟩
  · rw [quatDot_eq]
    have : 1 + t ^ 2 ≠ 0 := by positivity
    simp
    field_simp
    ring
  · have h : vecClose ![1, 0, 0, 0] ![(1 - t ^ 2) / (1 + t ^ 2), 2 * t / (1 + t ^ 2), 0, 0] := by
      intro i
      fin_cases i <;> simp <;> norm_num [ht, abs_le]
    unfold isSameQuat
    simp [h]
  · have h1 : ¬ vecClose ![(1 - t ^ 2) / (1 + t ^ 2), 2 * t / (1 + t ^ 2), 0, 0] ![1, 0, 0, 0] := by
      intro h
      have := h 1
      simp at this
      norm_num [ht, abs_le] at this
    have h2 : ¬ vecClose ![(1 - t ^ 2) / (1 + t ^ 2), 2 * t / (1 + t ^ 2), 0, 0] (fun i => -(![1, 0, 0, 0] : Quat) i) := by
      intro h
      have := h 0
      simp at this
      norm_num [ht, abs_le] at this
    unfold isSameQuat
    simp [h1, h2]

end Electrode
