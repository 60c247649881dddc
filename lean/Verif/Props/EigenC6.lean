import Verif.Props.EigenC5

/-! C112, continued: small sets of points, and `quaternion_from_matrix` without `isprecise`. -/

namespace Electrode

open Matrix Spec

variable {n : Nat}

/-! ### small sets of points -/

/-- all the entries are at most `C` -/
def Sym4.Bounded (M : Sym4) (C : ℝ) : Prop :=
  |M.m0| ≤ C ∧ |M.m1| ≤ C ∧ |M.m2| ≤ C ∧ |M.m3| ≤ C ∧ |M.m5| ≤ C ∧ |M.m6| ≤ C ∧ |M.m7| ≤ C ∧ |M.m10| ≤ C ∧ |M.m11| ≤ C ∧ |M.m15| ≤ C

theorem abs_three {a b c C : ℝ} (ha : |a| ≤ C) (hb : |b| ≤ C) (hc : |c| ≤ C) : |a * b * c| ≤ C ^ 3 := by
  have hC : 0 ≤ C := (abs_nonneg a).trans ha
  rw [abs_mul, abs_mul, pow_succ, pow_two]
  exact mul_le_mul (mul_le_mul ha hb (abs_nonneg b) hC) hc (abs_nonneg c) (mul_nonneg hC hC)

theorem abs_six {a b c d e f K : ℝ} (ha : |a| ≤ K) (hb : |b| ≤ K) (hc : |c| ≤ K) (hd : |d| ≤ K) (he : |e| ≤ K) (hf : |f| ≤ K) :
    |a + b + c - (d + e + f)| ≤ 6 * K := by
  rw [abs_le] at *
  constructor <;> linarith

theorem dot_le_of {v : Fin 4 → ℝ} {K : ℝ} (h : ∀ i, |v i| ≤ K) : quatDot v ≤ 4 * K ^ 2 := by
  have : ∀ i, v i * v i ≤ K ^ 2 := fun i => by
    rw [← pow_two, ← sq_abs]
    exact pow_le_pow_left₀ (abs_nonneg _) (h i) 2
  rw [quatDot, Fin.sum_univ_four]
  linarith [this 0, this 1, this 2, this 3]

theorem rows_le {M : Sym4} {C : ℝ} (h : M.Bounded C) : quatDot (eigRow0 M) ≤ 4 * (6 * C ^ 3) ^ 2 ∧ quatDot (eigRow1 M) ≤ 4 * (6 * C ^ 3) ^ 2 ∧
    quatDot (eigRow2 M) ≤ 4 * (6 * C ^ 3) ^ 2 ∧ quatDot (eigRow3 M) ≤ 4 * (6 * C ^ 3) ^ 2 := by
  obtain ⟨h0, h1, h2, h3, h5, h6, h7, h10, h11, h15⟩ := h
  refine ⟨dot_le_of fun i => ?_, dot_le_of fun i => ?_, dot_le_of fun i => ?_, dot_le_of fun i => ?_⟩
  · fin_cases i <;> simp only [eigRow0, Fin.zero_eta, Fin.mk_one, Fin.reduceFinMk, cons_val_zero, cons_val_one, cons_val] <;>
      apply abs_six <;> apply abs_three <;> assumption
  · fin_cases i <;> simp only [eigRow1, Fin.zero_eta, Fin.mk_one, Fin.reduceFinMk, cons_val_zero, cons_val_one, cons_val] <;>
      apply abs_six <;> apply abs_three <;> assumption
  · fin_cases i <;> simp only [eigRow2, Fin.zero_eta, Fin.mk_one, Fin.reduceFinMk, cons_val_zero, cons_val_one, cons_val] <;>
      apply abs_six <;> apply abs_three <;> assumption
  · fin_cases i <;> simp only [eigRow3, Fin.zero_eta, Fin.mk_one, Fin.reduceFinMk, cons_val_zero, cons_val_one, cons_val] <;>
      apply abs_six <;> apply abs_three <;> assumption

theorem qform_bounded {M : Sym4} {C : ℝ} (h : M.Bounded C) (v : Fin 4 → ℝ) : |qform (symMat M) v| ≤ 4 * C * (v ⬝ᵥ v) := by
  obtain ⟨h0, h1, h2, h3, h5, h6, h7, h10, h11, h15⟩ := h
  have key : ∀ m x y : ℝ, |m| ≤ C → |m * x * y| ≤ C * (x ^ 2 + y ^ 2) / 2 := by
    intro m x y hm
    have hC : 0 ≤ C := (abs_nonneg m).trans hm
    rw [mul_assoc, abs_mul]
    have : |x * y| ≤ (x ^ 2 + y ^ 2) / 2 := by
      rw [abs_le]
      constructor <;> nlinarith [sq_nonneg (x + y), sq_nonneg (x - y)]
    calc |m| * |x * y| ≤ C * ((x ^ 2 + y ^ 2) / 2) := mul_le_mul hm this (abs_nonneg _) hC
      _ = _ := by ring
  have e : qform (symMat M) v = M.m0 * v 0 * v 0 + M.m5 * v 1 * v 1 + M.m10 * v 2 * v 2 + M.m15 * v 3 * v 3 +
      2 * (M.m1 * v 0 * v 1 + M.m2 * v 0 * v 2 + M.m3 * v 0 * v 3 + M.m6 * v 1 * v 2 + M.m7 * v 1 * v 3 + M.m11 * v 2 * v 3) := by
    simp only [qform, symMat, dotProduct, mulVec, Fin.sum_univ_four, of_apply, cons_val_zero, cons_val_one, cons_val]
    ring
  have k0 := abs_le.1 (key _ (v 0) (v 0) h0)
  have k1 := abs_le.1 (key _ (v 0) (v 1) h1)
  have k2 := abs_le.1 (key _ (v 0) (v 2) h2)
  have k3 := abs_le.1 (key _ (v 0) (v 3) h3)
  have k5 := abs_le.1 (key _ (v 1) (v 1) h5)
  have k6 := abs_le.1 (key _ (v 1) (v 2) h6)
  have k7 := abs_le.1 (key _ (v 1) (v 3) h7)
  have k10 := abs_le.1 (key _ (v 2) (v 2) h10)
  have k11 := abs_le.1 (key _ (v 2) (v 3) h11)
  have k15 := abs_le.1 (key _ (v 3) (v 3) h15)
  rw [e, dot_four, abs_le]
  constructor <;> linarith

/-- the bounds of the search -/
theorem value_bounded {M : Sym4} {C : ℝ} (h : M.Bounded C) {fuel : Nat} {r : ℝ} (hr : maxEigen fuel (tridiagonalize M) = some r) :
    |r| ≤ 5 * (4 * C + 2 * tEps) := by
  obtain ⟨Q, hQ, hq⟩ := c112_tridiag M
  obtain ⟨K, hK⟩ : ∃ K, K = 4 * C + 2 * tEps := ⟨_, rfl⟩
  have iso : ∀ v, (Q *ᵥ v) ⬝ᵥ (Q *ᵥ v) = v ⬝ᵥ v := fun v => by rw [dotProduct_mulVec, vecMul_mulVec, mul_eq_one_comm.1 hQ, vecMul_one]
  have hT : ∀ v, |qform (triMat (tridiagonalize M)) v| ≤ K * (v ⬝ᵥ v) := by
    intro v
    have h1 := abs_le.1 (hq v)
    have h2 := abs_le.1 (qform_bounded h (Q *ᵥ v))
    rw [iso] at h2
    rw [abs_le, hK]
    constructor <;> linarith
  rw [← hK]
  generalize tridiagonalize M = T at *
  have a0 : |T.a0| ≤ K := by simpa [qform_tri, dot_four] using hT ![1, 0, 0, 0]
  have a1 : |T.a1| ≤ K := by simpa [qform_tri, dot_four] using hT ![0, 1, 0, 0]
  have a2 : |T.a2| ≤ K := by simpa [qform_tri, dot_four] using hT ![0, 0, 1, 0]
  have a3 : |T.a3| ≤ K := by simpa [qform_tri, dot_four] using hT ![0, 0, 0, 1]
  have b0 : |T.b0| ≤ 2 * K := by
    have := abs_le.1 (hT ![1, 1, 0, 0])
    simp [qform_tri, dot_four] at this
    rw [abs_le] at a0 a1 ⊢
    constructor <;> linarith
  have b1 : |T.b1| ≤ 2 * K := by
    have := abs_le.1 (hT ![0, 1, 1, 0])
    simp [qform_tri, dot_four] at this
    rw [abs_le] at a2 a1 ⊢
    constructor <;> linarith
  have b2 : |T.b2| ≤ 2 * K := by
    have := abs_le.1 (hT ![0, 0, 1, 1])
    simp [qform_tri, dot_four] at this
    rw [abs_le] at a2 a3 ⊢
    constructor <;> linarith
  rw [abs_le] at a0 a1 a2 a3
  have hl : -(5 * K) ≤ gershLower T := by
    unfold gershLower
    refine le_min (le_min (le_min ?_ ?_) ?_) ?_ <;> linarith [abs_nonneg T.b0]
  have hu : gershUpper T ≤ 5 * K := by
    unfold gershUpper
    refine max_le (max_le (max_le ?_ ?_) ?_) ?_ <;> linarith [abs_nonneg T.b0]
  obtain ⟨k, hk⟩ := maxEigen_ends T
  obtain ⟨r', hr', h1, h2⟩ := hk (max fuel (k + 1)) (by omega)
  have : maxEigen (max fuel (k + 1)) T = some r := bisect_mono T (le_max_left _ _) hr
  rw [hr'] at this
  rw [← Option.some.inj this, abs_le]
  constructor <;> linarith

theorem sum_mul_le {x y : Fin n → ℝ} {S : ℝ} (hx : ∑ j, x j ^ 2 ≤ S) (hy : ∑ j, y j ^ 2 ≤ S) : |∑ j, x j * y j| ≤ S := by
  have h : ∀ j, |x j * y j| ≤ x j ^ 2 / 2 + y j ^ 2 / 2 := by
    intro j
    rw [abs_le]
    constructor <;> nlinarith [sq_nonneg (x j + y j), sq_nonneg (x j - y j)]
  refine (Finset.abs_sum_le_sum_abs _ _).trans ((Finset.sum_le_sum fun j _ => h j).trans ?_)
  rw [Finset.sum_add_distrib, ← Finset.sum_div, ← Finset.sum_div]
  linarith

theorem horn_bounded {w0 w1 : Fin 3 → Fin n → ℝ} {S : ℝ} (h0 : ∑ a, ∑ j, (w0 a j - (∑ i, w0 a i) / n) ^ 2 ≤ S)
    (h1 : ∑ a, ∑ j, (w1 a j - (∑ i, w1 a i) / n) ^ 2 ≤ S) : (hornC w0 w1).Bounded (3 * S) := by
  have hrow : ∀ (w : Fin 3 → Fin n → ℝ), ∑ a, ∑ j, (w a j - (∑ i, w a i) / n) ^ 2 ≤ S → ∀ a, ∑ j, (w a j - cMean w a) ^ 2 ≤ S := by
    intro w h a
    refine le_trans ?_ h
    exact Finset.single_le_sum (f := fun a => ∑ j, (w a j - cMean w a) ^ 2) (fun a _ => Finset.sum_nonneg fun j _ => sq_nonneg _) (Finset.mem_univ a)
  have k : ∀ a b, |∑ j, (w0 a j - cMean w0 a) * (w1 b j - cMean w1 b)| ≤ S := fun a b => sum_mul_le (hrow w0 h0 a) (hrow w1 h1 b)
  have hS : 0 ≤ S := (abs_nonneg _).trans (k 0 0)
  have k00 := abs_le.1 (k 0 0)
  have k01 := abs_le.1 (k 0 1)
  have k02 := abs_le.1 (k 0 2)
  have k10 := abs_le.1 (k 1 0)
  have k11 := abs_le.1 (k 1 1)
  have k12 := abs_le.1 (k 1 2)
  have k20 := abs_le.1 (k 2 0)
  have k21 := abs_le.1 (k 2 1)
  have k22 := abs_le.1 (k 2 2)
  refine ⟨?_, ?_, ?_, ?_, ?_, ?_, ?_, ?_, ?_, ?_⟩ <;> simp only [hornC] <;> rw [abs_le] <;> constructor <;> linarith

/-- **C112**: the compiled `superimposition_matrix` fails for all points whose squares of the distances from their centroid add up to
`2e-5` or less. -/
theorem c112_small {e : Nat} (v0 v1 : Fin (3 + e) → Fin n → ℝ) (scaling usesvd : Bool)
    (h0 : ∑ a : Fin 3, ∑ j, (v0 (Fin.castAdd e a) j - (∑ i, v0 (Fin.castAdd e a) i) / n) ^ 2 ≤ 2 / 10 ^ 5)
    (h1 : ∑ a : Fin 3, ∑ j, (v1 (Fin.castAdd e a) j - (∑ i, v1 (Fin.castAdd e a) i) / n) ^ 2 ≤ 2 / 10 ^ 5) :
    ∃ N, ∀ fuel ≥ N, cSuperimposition fuel v0 v1 scaling usesvd = some (.error .valueError) := by
  have hb := horn_bounded h0 h1
  obtain ⟨N, r, h⟩ := c112_terminates (tridiagonalize (hornC (fun a => v0 (Fin.castAdd e a)) fun a => v1 (Fin.castAdd e a)))
  refine ⟨N, fun fuel hf => ?_⟩
  have hr := abs_le.1 (value_bounded hb (h N le_rfl))
  rw [cSup_eq, cSupCore, topVector, h fuel hf]
  generalize hornC (fun a => v0 (Fin.castAdd e a)) (fun a => v1 (Fin.castAdd e a)) = M at *
  have ht : tEps ≤ 1 / 10 ^ 15 := by norm_num [tEps]
  have hs : (M.shift r).Bounded (128 / 10 ^ 5) := by
    obtain ⟨b0, b1, b2, b3, b5, b6, b7, b10, b11, b15⟩ := hb
    rw [abs_le] at b0 b1 b2 b3 b5 b6 b7 b10 b11 b15
    refine ⟨?_, ?_, ?_, ?_, ?_, ?_, ?_, ?_, ?_, ?_⟩ <;> simp only [Sym4.shift] <;> rw [abs_le] <;> constructor <;> linarith
  obtain ⟨r0, r1, r2, r3⟩ := rows_le hs
  have hk : 4 * (6 * (128 / 10 ^ 5 : ℝ) ^ 3) ^ 2 < tEps := by norm_num [tEps]
  have he := eigEps_ge (M.shift r)
  have : eigenvector (M.shift r) = none := by
    apply eigenvector_none_of <;> linarith
  simp only [Option.map_some, this]

/-- the six points at the distance `1/1000`, and any other ones as close together -/
example (scaling usesvd : Bool) : ∃ N, ∀ fuel ≥ N,
    cSuperimposition (d := 3 + 0) (d' := 3 + 0) fuel (sixPoints (1 / 1000)) (sixTurned (1 / 1000)) scaling usesvd = some (.error .valueError) := by
  have hB : ∀ v : Fin 3 → Fin 6 → ℝ, v = sixPoints (1 / 1000) ∨ v = sixTurned (1 / 1000) →
      ∑ a : Fin 3, ∑ j, (v a j - (∑ i, v a i) / ((6 : ℕ) : ℝ)) ^ 2 ≤ 2 / 10 ^ 5 := by
    rintro v (rfl | rfl)
    · simp [sixPoints, Fin.sum_univ_succ]; norm_num
    · rw [sixTurned_eq]; simp [Fin.sum_univ_succ]; norm_num
  exact c112_small (e := 0) (sixPoints (1 / 1000)) (sixTurned (1 / 1000)) scaling usesvd (hB _ (.inl rfl)) (hB _ (.inr rfl))

/-! ### the quaternion of a rotation matrix -/

/-- `x`, `y`, `z`, `w` -/
def wLast (p : Quat) : Fin 4 → ℝ := ![p 1, p 2, p 3, p 0]

theorem wLast_dot (p : Quat) : wLast p ⬝ᵥ wLast p = quatDot p := by
  simp [wLast, quatDot, dotProduct, Fin.sum_univ_four]
  ring

theorem quatKC_mat {M : Matrix (Fin 4) (Fin 4) ℝ} {p : Quat} (hp : quatDot p = 1) (hM : upper M = homMat p) :
    symMat (quatKC M) = (4 / 3 : ℝ) • vecMulVec (wLast p) (wLast p) - (1 / 3 : ℝ) • (1 : Matrix (Fin 4) (Fin 4) ℝ) := by
  have h : ∀ a b : Fin 3, M a.castSucc b.castSucc = homMat p a b := fun a b => congrFun (congrFun hM a) b
  have e00 : M 0 0 = _ := h 0 0
  have e01 : M 0 1 = _ := h 0 1
  have e02 : M 0 2 = _ := h 0 2
  have e10 : M 1 0 = _ := h 1 0
  have e11 : M 1 1 = _ := h 1 1
  have e12 : M 1 2 = _ := h 1 2
  have e20 : M 2 0 = _ := h 2 0
  have e21 : M 2 1 = _ := h 2 1
  have e22 : M 2 2 = _ := h 2 2
  rw [quatDot_eq] at hp
  ext i j
  fin_cases i <;> fin_cases j <;>
    simp only [symMat, quatKC, e00, e01, e02, e10, e11, e12, e20, e21, e22, homMat, wLast, Fin.zero_eta, Fin.mk_one, Fin.reduceFinMk, of_apply,
      cons_val_zero, cons_val_one, cons_val, cons_val', cons_val_fin_one, Matrix.sub_apply, Matrix.smul_apply, vecMulVec_apply, one_apply_eq, smul_eq_mul] <;>
    first
    | (rw [one_apply_ne (by decide)]; ring1)
    | linear_combination (-1 / 3) * hp
    | linear_combination (1 / 3) * hp

/-- the eigenvalues -/
theorem rankOne_eigen {P : Fin 4 → ℝ} (hP : P ⬝ᵥ P = 1) {V : Matrix (Fin 4) (Fin 4) ℝ} {w : Fin 4 → ℝ} {m : Fin 4} (hV : Vᵀ * V = 1)
    (h : ((4 / 3 : ℝ) • vecMulVec P P - (1 / 3 : ℝ) • (1 : Matrix (Fin 4) (Fin 4) ℝ)) * V = V * diagonal w) (hm : ∀ i, w i ≤ w m) :
    w m = 1 ∧ ∀ i, w m - w i ≤ 4 / 3 := by
  have hw : ∀ i, w i = 1 ∨ w i = -(1 / 3) := by
    intro i
    obtain ⟨hv, he⟩ := col_eigen hV h i
    generalize (fun k => V k i) = v at hv he
    rw [sub_mulVec, smul_mulVec, smul_mulVec, one_mulVec, vecMulVec_mulVec] at he
    by_cases h0 : P ⬝ᵥ v = 0
    · right
      rw [h0] at he
      obtain ⟨k, hk⟩ : ∃ k, v k ≠ 0 := by
        by_contra hc
        push Not at hc
        exact hv (funext hc)
      have := congrFun he k
      simp at this
      have : (w i + 1 / 3) * v k = 0 := by linarith
      rcases mul_eq_zero.1 this with h1 | h1
      · linarith
      · exact absurd h1 hk
    · left
      have := congrArg (P ⬝ᵥ ·) he
      simp only [dotProduct_sub, dotProduct_smul, smul_eq_mul, hP, op_smul_eq_smul] at this
      have : (w i - 1) * (P ⬝ᵥ v) = 0 := by linarith
      rcases mul_eq_zero.1 this with h1 | h1
      · linarith
      · exact absurd h1 h0
  have ht := trace_eigen hV h
  rw [trace_sub, trace_smul, trace_smul, trace_vecMulVec, hP, trace_one, Fin.sum_univ_four] at ht
  simp at ht
  have h1 : w m = 1 := by
    rcases hw m with h1 | h1
    · exact h1
    · exfalso
      have a0 := hm 0
      have a1 := hm 1
      have a2 := hm 2
      have a3 := hm 3
      linarith
  refine ⟨h1, fun i => ?_⟩
  rcases hw i with h2 | h2 <;> rw [h1, h2] <;> norm_num

theorem adj_rankOne (P : Fin 4 → ℝ) (k a : ℝ) (i : Fin 4) :
    (k • vecMulVec P P + a • (1 : Matrix (Fin 4) (Fin 4) ℝ)).adjugate i i = a ^ 2 * (a + k * (P ⬝ᵥ P - P i ^ 2)) := by
  rw [dot_four, adjugate_fin_succ_eq_det_submatrix, det_fin_three]
  fin_cases i <;> simp [Fin.succAbove, vecMulVec_apply, one_apply, Fin.lt_def] <;> ring

theorem homMat_frob {p q : Quat} (hp : quatDot p = 1) (hq : quatDot q = 1) (a b : Fin 3) :
    (homMat q a b - homMat p a b) ^ 2 ≤ 8 * (1 - (wLast p ⬝ᵥ wLast q) ^ 2) := by
  have e : ∑ a, ∑ b, (homMat q a b - homMat p a b) ^ 2 = 3 * quatDot q ^ 2 + 3 * quatDot p ^ 2 - 2 * (4 * (wLast p ⬝ᵥ wLast q) ^ 2 - quatDot p * quatDot q) := by
    simp [homMat, wLast, quatDot, dotProduct, Fin.sum_univ_four, Fin.sum_univ_three]
    ring
  rw [hp, hq] at e
  have h1 : (homMat q a b - homMat p a b) ^ 2 ≤ ∑ b, (homMat q a b - homMat p a b) ^ 2 :=
    Finset.single_le_sum (f := fun b => (homMat q a b - homMat p a b) ^ 2) (fun _ _ => sq_nonneg _) (Finset.mem_univ b)
  have h2 : ∑ b, (homMat q a b - homMat p a b) ^ 2 ≤ ∑ a, ∑ b, (homMat q a b - homMat p a b) ^ 2 :=
    Finset.single_le_sum (f := fun a => ∑ b, (homMat q a b - homMat p a b) ^ 2) (fun _ _ => Finset.sum_nonneg fun _ _ => sq_nonneg _) (Finset.mem_univ a)
  linarith

/-- the angle to the eigenvector -/
theorem rankOne_angle {P u : Fin 4 → ℝ} (hP : P ⬝ᵥ P = 1) (hu : u ⬝ᵥ u = 1) {r c : ℝ} {i : Fin 4} (hr : |r - 1| ≤ 1 / 10)
    (h : ((4 / 3 : ℝ) • vecMulVec P P - (1 / 3 : ℝ) • (1 : Matrix (Fin 4) (Fin 4) ℝ)) *ᵥ u = r • u + Pi.single i c) :
    1 - (P ⬝ᵥ u) ^ 2 ≤ c ^ 2 := by
  rw [sub_mulVec, smul_mulVec, smul_mulVec, one_mulVec, vecMulVec_mulVec, op_smul_eq_smul] at h
  have e : (4 * (P ⬝ᵥ u)) • P - (1 + 3 * r) • u = Pi.single i (3 * c) := by
    ext j
    have := congrFun h j
    have es : (Pi.single i (3 * c) : Fin 4 → ℝ) j = 3 * (Pi.single i c : Fin 4 → ℝ) j := by
      by_cases hj : j = i
      · subst hj; simp
      · simp [hj]
    rw [es]
    simp only [Pi.sub_apply, Pi.smul_apply, Pi.add_apply, smul_eq_mul] at this ⊢
    linarith
  have hc : (Pi.single i (3 * c) : Fin 4 → ℝ) ⬝ᵥ Pi.single i (3 * c) = 9 * c ^ 2 := by
    rw [dotProduct_single, Pi.single_eq_same]
    ring
  rw [← e] at hc
  simp only [sub_dotProduct, dotProduct_sub, smul_dotProduct, dotProduct_smul, smul_eq_mul, hP, hu, dotProduct_comm u P] at hc
  generalize P ⬝ᵥ u = α at *
  rw [abs_le] at hr
  have k : (16 + 8 * (3 * (r - 1))) * (1 - α ^ 2) + (3 * (r - 1)) ^ 2 = 9 * c ^ 2 := by linear_combination hc
  have h1 : (16 + 8 * (3 * (r - 1))) * (1 - α ^ 2) ≤ 9 * c ^ 2 := by nlinarith [sq_nonneg (3 * (r - 1))]
  by_contra hlt
  push Not at hlt
  have h2 : 0 < 1 - α ^ 2 := lt_of_le_of_lt (sq_nonneg c) hlt
  nlinarith

/-- **C112**: for a rotation matrix (with any translation) the compiled `quaternion_from_matrix` without `isprecise` finds a unit
quaternion, with `w` not below zero, whose matrix is the given one up to `1e-6`.
Missing: the search for the eigenvalue must not meet a negative pivot above `-1e-18` that is used afterwards. -/
theorem c112_quat_partial (M : Matrix (Fin 4) (Fin 4) ℝ) (hM : IsRotation (upper M)) : ∃ N, ∀ fuel ≥ N, GoodSearch fuel (quatKC M) →
    ∃ q, cQuatFromMatrix fuel M = some (.ok q) ∧ quatDot q = 1 ∧ 0 ≤ q 0 ∧
      ∀ a b : Fin 3, |quatMatrix q a.castSucc b.castSucc - M a.castSucc b.castSucc| ≤ 1 / 10 ^ 6 := by
  obtain ⟨p, hp, hMp⟩ := rotation_quat hM
  have hK := quatKC_mat hp hMp.symm
  have hP : wLast p ⬝ᵥ wLast p = 1 := (wLast_dot p).trans hp
  obtain ⟨V, w, m, hV, hA, hm⟩ := exists_eigen (symMat_symm (quatKC M))
  obtain ⟨hw1, hD⟩ := rankOne_eigen hP hV (by rw [← hK]; exact hA) hm
  obtain ⟨N, r, hN⟩ := c112_terminates (tridiagonalize (quatKC M))
  have hE : eigErr ≤ 2 / 10 ^ 15 := by norm_num [eigErr, tEps]
  have hE0 := eigErr_pos
  refine ⟨N, fun fuel hf hg => ?_⟩
  have hr : |r - 1| ≤ eigErr := by
    obtain ⟨t, ht⟩ := exists_top (triMat_symm (tridiagonalize (quatKC M)))
    have h1 := c112_max_partial _ t ht fuel r (hN fuel hf) hg
    have h2 := tri_top (isTop_eigen hV hA hm (symMat_symm _)) ht
    rw [hw1] at h2
    have := abs_add_le (r - t) (t - 1)
    rw [sub_add_sub_cancel] at this
    unfold eigErr
    linarith
  have hr' := abs_le.1 hr
  -- there is an eigenvector
  obtain ⟨v, hv⟩ : ∃ v, topVector fuel (quatKC M) = some (some v) := by
    rw [topVector, hN fuel hf]
    simp only [Option.map_some, Option.some.injEq]
    obtain ⟨i, hi⟩ : ∃ i, 1 / 4 ≤ wLast p i ^ 2 := by
      by_contra hc
      push Not at hc
      rw [dot_four] at hP
      linarith [hc 0, hc 1, hc 2, hc 3]
    refine eigenvector_some_of (i := i) ?_
    have hs : symMat ((quatKC M).shift r) = (4 / 3 : ℝ) • vecMulVec (wLast p) (wLast p) + (-(1 / 3 + r)) • (1 : Matrix (Fin 4) (Fin 4) ℝ) := by
      rw [symMat_shift, hK, sub_sub, ← add_smul, neg_smul, sub_eq_add_neg]
    have h1 : (1 / 2 : ℝ) ^ 2 ≤ adjCol (symMat ((quatKC M).shift r)) i ⬝ᵥ adjCol (symMat ((quatKC M).shift r)) i := by
      have h2 : adjCol (symMat ((quatKC M).shift r)) i i ≤ -(1 / 2) := by
        rw [adjCol, hs, adj_rankOne, hP]
        have h3 : (13 / 10 : ℝ) ^ 2 ≤ (-(1 / 3 + r)) ^ 2 := by nlinarith
        nlinarith
      have h3 : (1 / 2 : ℝ) ^ 2 ≤ adjCol (symMat ((quatKC M).shift r)) i i * adjCol (symMat ((quatKC M).shift r)) i i := by nlinarith
      exact h3.trans (Finset.single_le_sum (f := fun j => adjCol (symMat ((quatKC M).shift r)) i j * adjCol (symMat ((quatKC M).shift r)) i j)
        (fun _ _ => mul_self_nonneg _) (Finset.mem_univ i))
    refine le_trans ?_ h1
    have hb : ∀ a b, |symMat ((quatKC M).shift r) a b| ≤ 3 := by
      intro a b
      rw [hs, Matrix.add_apply, Matrix.smul_apply, Matrix.smul_apply, vecMulVec_apply, smul_eq_mul, smul_eq_mul]
      have ha : ∀ c, wLast p c ^ 2 ≤ 1 := fun c => by
        rw [← hP, pow_two]
        exact Finset.single_le_sum (f := fun j => wLast p j * wLast p j) (fun _ _ => mul_self_nonneg _) (Finset.mem_univ c)
      have h1 : |wLast p a * wLast p b| ≤ 1 := by
        rw [abs_le]
        constructor <;> nlinarith [ha a, ha b, sq_nonneg (wLast p a + wLast p b), sq_nonneg (wLast p a - wLast p b)]
      have h2 : |(1 : Matrix (Fin 4) (Fin 4) ℝ) a b| ≤ 1 := by
        rw [one_apply]
        split_ifs <;> simp
      have h3 : |-(1 / 3 + r)| ≤ 4 / 3 + 1 / 10 := by
        rw [abs_le]
        constructor <;> linarith
      refine (abs_add_le _ _).trans ?_
      rw [abs_mul (4 / 3 : ℝ), abs_mul (-(1 / 3 + r)), abs_of_nonneg (by norm_num : (0:ℝ) ≤ 4 / 3)]
      have : |-(1 / 3 + r)| * |(1 : Matrix (Fin 4) (Fin 4) ℝ) a b| ≤ (4 / 3 + 1 / 10) * 1 := mul_le_mul h3 h2 (abs_nonneg _) (by norm_num)
      linarith
    generalize (quatKC M).shift r = S at *
    have b0 : |S.m0| ≤ 3 := hb 0 0
    have b5 : |S.m5| ≤ 3 := hb 1 1
    have b10 : |S.m10| ≤ 3 := hb 2 2
    have b15 : |S.m15| ≤ 3 := hb 3 3
    have b1 : |S.m1| ≤ 3 := hb 0 1
    have b11 : |S.m11| ≤ 3 := hb 2 3
    have four : ∀ {a b c d : ℝ}, |a| ≤ 3 → |b| ≤ 3 → |c| ≤ 3 → |d| ≤ 3 → |a * b * c * d| ≤ 81 := by
      intro a b c d ha hb hc hd
      rw [abs_mul]
      have := mul_le_mul (abs_three ha hb hc) hd (abs_nonneg d) (by norm_num)
      linarith
    have k1 := abs_le.1 (four b0 b5 b10 b15)
    have k2 := abs_le.1 (four b1 b1 b11 b11)
    unfold eigEps
    simp only
    split_ifs
    · norm_num [tEps]
    · rw [← pow_two]
      refine sq_le_sq' ?_ ?_ <;> linarith
  obtain ⟨hu, r', i, c, hr2, he, hc⟩ := topVector_spec hV hA hm hg hv hD
  rw [hw1] at hr2
  rw [hK] at he
  have hang := rankOne_angle hP hu (hr2.trans (hE.trans (by norm_num))) he
  have hc2 : |c| ≤ 2 / 10 ^ 7 := by
    refine hc.trans ?_
    have h1 : (4 / 3 + eigErr) ^ 3 ≤ (14 / 10) ^ 3 := pow_le_pow_left₀ (by linarith) (by linarith) 3
    have h2 : eigErr * (4 / 3 + eigErr) ^ 3 ≤ 2 / 10 ^ 15 * (14 / 10) ^ 3 := mul_le_mul hE h1 (by positivity) (by norm_num)
    linarith
  obtain ⟨q, hq⟩ : ∃ q : Quat, q = ![v 2, v 3, v 0, v 1] := ⟨_, rfl⟩
  have hwq : wLast q = lastFirst v := by
    subst hq
    ext j
    fin_cases j <;> rfl
  have hq1 : quatDot q = 1 := by rw [← wLast_dot, hwq]; exact hu
  have hclose : ∀ a b : Fin 3, |homMat q a b - homMat p a b| ≤ 1 / 10 ^ 6 := by
    intro a b
    have h1 := homMat_frob hp hq1 a b
    rw [hwq] at h1
    have h2 : c ^ 2 ≤ (2 / 10 ^ 7) ^ 2 := by
      rw [← sq_abs]
      exact pow_le_pow_left₀ (abs_nonneg c) hc2 2
    rw [← abs_of_nonneg (by positivity : (0:ℝ) ≤ 1 / 10 ^ 6)]
    apply sq_le_sq.1
    linarith
  have hMe : ∀ a b : Fin 3, M a.castSucc b.castSucc = homMat p a b := fun a b => (congrFun (congrFun hMp a) b).symm
  have hQe : ∀ q' : Quat, quatDot q' = 1 → ∀ a b : Fin 3, quatMatrix q' a.castSucc b.castSucc = homMat q' a b := by
    intro q' h a b
    rw [quatMatrix_unit _ h]
    exact congrFun (congrFun (upper_homog_eq (homMat q')) a) b
  have hres : cQuatFromMatrix fuel M = some (.ok (open Classical in if q 0 < 0 then fun a => -q a else q)) := by
    rw [cQuatFromMatrix, hv]
    subst hq
    rfl
  by_cases h0 : q 0 < 0
  · have hn : quatDot (fun a => -q a) = 1 := by
      rw [← hq1]
      simp [quatDot]
    refine ⟨fun a => -q a, by rw [hres, if_pos h0], hn, by simpa using h0.le, fun a b => ?_⟩
    rw [hQe _ hn, hMe]
    have : homMat (fun a => -q a) = homMat q := by
      ext a b
      fin_cases a <;> fin_cases b <;> simp [homMat]
    rw [this]
    exact hclose a b
  · refine ⟨q, by rw [hres, if_neg h0], hq1, not_lt.1 h0, fun a b => ?_⟩
    rw [hQe _ hq1, hMe]
    exact hclose a b

/-- for the turn by a right angle about the z axis the search is good -/
example (fuel : Nat) : GoodSearch fuel (quatKC quarterTurn) := by
  have hT : tridiagonalize (quatKC quarterTurn) = ⟨-(1 / 3), -(1 / 3), 1 / 3, 1 / 3, 0, 0, 2 / 3⟩ := by
    have hK : quatKC quarterTurn = ⟨-(1 / 3), 0, 0, 0, -(1 / 3), 0, 0, 1 / 3, 2 / 3, 1 / 3⟩ := by
      simp [quatKC, quarterTurn]
      norm_num
    have : ¬ tEps < √(0 * 0 + (0 * 0 + 0 * 0)) := by simp [tEps_pos.le]
    have h' : ¬ tEps < √(0 * 0 + 0 * 0) := by simp [tEps_pos.le]
    rw [hK]
    simp only [tridiagonalize, triFirst, triSecond, if_neg this, if_neg h']
  have htop : IsTop (triMat ⟨-(1 / 3), -(1 / 3), 1 / 3, 1 / 3, 0, 0, 2 / 3⟩) 1 := by
    refine ⟨⟨![0, 0, 1, 1], fun h => by simpa using congrFun h 2, ?_⟩, fun m v hv he => ?_⟩
    · ext i
      fin_cases i <;> simp [triMat, mulVec, dotProduct, Fin.sum_univ_four] <;> norm_num
    · have hp := dot_self_pos hv
      have e : qform (triMat ⟨-(1 / 3), -(1 / 3), 1 / 3, 1 / 3, 0, 0, 2 / 3⟩) v = m * (v ⬝ᵥ v) := by rw [qform, he, dotProduct_smul, smul_eq_mul]
      rw [qform_tri] at e
      rw [dot_four] at e hp
      simp only at e
      have h4 : m * (v 0 ^ 2 + v 1 ^ 2 + v 2 ^ 2 + v 3 ^ 2) ≤ 1 * (v 0 ^ 2 + v 1 ^ 2 + v 2 ^ 2 + v 3 ^ 2) := by
        nlinarith [sq_nonneg (v 2 - v 3), sq_nonneg (v 0), sq_nonneg (v 1)]
      exact le_of_mul_le_mul_right h4 hp
  unfold GoodSearch
  rw [hT]
  have hl : gershLower ⟨-(1 / 3), -(1 / 3), 1 / 3, 1 / 3, 0, 0, 2 / 3⟩ = -(1 / 3) := by
    simp only [gershLower, abs_zero, abs_of_pos (by norm_num : (0:ℝ) < 2 / 3)]
    norm_num
  have hu : gershUpper ⟨-(1 / 3), -(1 / 3), 1 / 3, 1 / 3, 0, 0, 2 / 3⟩ = 1 := by
    simp only [gershUpper, abs_zero, abs_of_pos (by norm_num : (0:ℝ) < 2 / 3)]
    norm_num
  rw [hl, hu]
  refine search_good htop (by norm_num) ?_ ?_ fuel
  · refine ⟨fun h => h.2.2 rfl, fun h => h.2.2 rfl, ?_⟩
    rintro ⟨-, h, -⟩
    simp only [piv, cons_val] at h
    norm_num at h
  · intro x hx
    refine ⟨fun h => h.2.2 rfl, fun h => h.2.2 rfl, ?_⟩
    rintro ⟨h, -, -⟩
    simp only [piv, cons_val] at h
    norm_num at h hx
    linarith

end Electrode
