import Verif.Props.Register2

/-! C107, continued: the transformation with shear, the factor of scale, and cases. -/

namespace Electrode

open Matrix Spec

variable {d n : Nat}

theorem frob_sim {R : Matrix (Fin d) (Fin d) ℝ} (hR : Rᵀ * R = 1) (k : ℝ) (v0 v1 : Matrix (Fin d) (Fin n) ℝ) :
    frob ((k • R) * v0 - v1) = k ^ 2 * frob v0 + frob v1 - 2 * k * covar v0 v1 R := by
  have h := frob_rot hR (k • v0) v1
  have e1 : frob (k • v0) = k ^ 2 * frob v0 := by
    unfold frob
    simp only [Finset.mul_sum, Matrix.smul_apply, smul_eq_mul, mul_pow]
  have e2 : covar (k • v0) v1 R = k * covar v0 v1 R := by
    unfold covar
    rw [transpose_smul, Matrix.mul_smul, Matrix.smul_mul, Matrix.trace_smul, smul_eq_mul]
  rw [e1, e2, Matrix.mul_smul] at h
  rw [Matrix.smul_mul, h]
  ring

/-- C107: with scale and without shear the factor is the ratio of the distances from the centroids, and no other rotation and translation
with this factor brings the points nearer to each other. -/
theorem c107_scale_best_partial (lib : RegLib) (hl : IsRegLib lib) {d n : Nat} (hd : 2 ≤ d) (hn : d ≤ n) (v0 v1 : Fin d → Fin n → ℝ)
    (usesvd : Bool) (hne : ∃ a i j, v0 a i ≠ v0 a j) :
    ∃ M k, affineFromPoints lib v0 v1 false true usesvd = .ok (some M) ∧ 0 ≤ k ∧
      k ^ 2 * (∑ a, ∑ j, (v0 a j - (∑ i, v0 a i) / n) ^ 2) = ∑ a, ∑ j, (v1 a j - (∑ i, v1 a i) / n) ^ 2 ∧ IsSimilarity k M ∧
      ∀ M', IsSimilarity k M' → sqDist M v0 v1 ≤ sqDist M' v0 v1 := by
  have hz : frob (centred v0) ≠ 0 := by
    rw [Ne, frob_centred_zero (by omega)]
    obtain ⟨a, i, j, h⟩ := hne
    exact fun h' => h (h' a i j)
  have hfe : ∀ v : Fin d → Fin n → ℝ, ∑ a, ∑ j, (v a j - (∑ i, v a i) / n) ^ 2 = frob (centred v) := by
    intro v
    unfold frob
    rw [Finset.sum_comm]
    rfl
  obtain ⟨hR, hmax⟩ := rigid_spec hl (by omega : 0 < d) usesvd (centred v0) (centred v1)
  obtain ⟨R, hRe⟩ : ∃ R, R = rigidPart lib (by omega : 0 < d) usesvd (centred v0) (centred v1) := ⟨_, rfl⟩
  obtain ⟨k, hk⟩ : ∃ k, k = √(frob (centred v1) / frob (centred v0)) := ⟨_, rfl⟩
  have hk0 : 0 ≤ k := hk ▸ Real.sqrt_nonneg _
  rw [← hRe] at hR hmax
  refine ⟨_, k, (fromPoints_scale lib hd hn v0 v1 usesvd).trans (if_neg hz), hk0, ?_, ?_, ?_⟩
  · rw [hfe, hfe, hk, Real.sq_sqrt (div_nonneg (frob_nonneg _) (frob_nonneg _)), div_mul_cancel₀ _ hz]
  · rw [moveBack_homN, ← hk, ← hRe]
    exact ⟨affine_homN _ _, R, hR, fun a b => by simp⟩
  · rintro M' ⟨ha, R', hR', e⟩
    have hM' : M' = homN (k • R') fun a => M' a.castSucc (Fin.last d) := by
      refine (homN_ext ha).trans ?_
      congr 1
      ext a b
      simp [e]
    rw [hM']
    refine le_trans ?_ (sqDist_split (by omega) (k • R') _ v0 v1)
    rw [sqDist_moveBack, ← hk, ← hRe, frob_sim hR.1, frob_sim hR'.1]
    have := mul_le_mul_of_nonneg_left (hmax R' hR') hk0
    linarith

/-- C107: the two methods bring the points equally near. -/
theorem c107_methods (lib : RegLib) (hl : IsRegLib lib) {d n : Nat} (hd : 2 ≤ d) (hn : d ≤ n) (v0 v1 : Fin d → Fin n → ℝ) :
    ∃ M M', affineFromPoints lib v0 v1 false false true = .ok (some M) ∧ affineFromPoints lib v0 v1 false false false = .ok (some M') ∧
      sqDist M v0 v1 = sqDist M' v0 v1 := by
  obtain ⟨M, h1, h2, h3⟩ := c107_rigid lib hl hd hn v0 v1 true
  obtain ⟨M', h1', h2', h3'⟩ := c107_rigid lib hl hd hn v0 v1 false
  exact ⟨M, M', h1, h1', le_antisymm (h3 M' h2') (h3' M h2)⟩

/-- C107: `superimposition_matrix` gives the best rotation and translation of the first three coordinates; the fourth does not count. -/
theorem c107_superimposition (lib : RegLib) (hl : IsRegLib lib) {e e' n : Nat} (hn : 3 ≤ n) (v0 : Fin (3 + e) → Fin n → ℝ)
    (v1 : Fin (3 + e') → Fin n → ℝ) (usesvd : Bool) :
    ∃ M, superimposition lib v0 v1 false usesvd = .ok (some M) ∧ IsSimilarity (d := 3) 1 M ∧
      ∀ M', IsSimilarity (d := 3) 1 M' →
        sqDist (d := 3) M (fun a => v0 (Fin.castAdd e a)) (fun a => v1 (Fin.castAdd e' a)) ≤
          sqDist (d := 3) M' (fun a => v0 (Fin.castAdd e a)) (fun a => v1 (Fin.castAdd e' a)) :=
  c107_rigid lib hl (by norm_num) hn _ _ usesvd

/-- C107: `superimposition_matrix` with scale finds every rotation, scaling and translation. -/
theorem c107_superimposition_scale (lib : RegLib) (hl : IsRegLib lib) {e e' n : Nat} (hn : 3 ≤ n) (v0 : Fin (3 + e) → Fin n → ℝ)
    (v1 : Fin (3 + e') → Fin n → ℝ) (usesvd : Bool) (hne : ∃ (a : Fin 3) (i j : Fin n), v0 (Fin.castAdd e a) i ≠ v0 (Fin.castAdd e a) j)
    (k : ℝ) (hk : 0 < k) (M' : Matrix (Fin 4) (Fin 4) ℝ) (hM' : IsSimilarity (d := 3) k M')
    (hv : ∀ j, image (d := 3) M' (fun b => v0 (Fin.castAdd e b) j) = fun a => v1 (Fin.castAdd e' a) j) :
    ∃ M, superimposition lib v0 v1 true usesvd = .ok (some M) ∧ IsSimilarity (d := 3) k M ∧
      ∀ j, image (d := 3) M (fun b => v0 (Fin.castAdd e b) j) = fun a => v1 (Fin.castAdd e' a) j :=
  c107_scale lib hl (by norm_num) hn _ _ usesvd hne k hk M' hM' hv

/-! shear -/

theorem shear_exact {lib : RegLib} (hl : IsRegLib lib) (hd : 2 ≤ d) (hn : d ≤ n) (v0 v1 : Matrix (Fin d) (Fin n) ℝ) (L : Matrix (Fin d) (Fin d) ℝ)
    (hL : v1 = L * v0) (hfull : ∀ x : Fin d → ℝ, (∀ j, ∑ a, x a * v0 a j = 0) → x = 0) : shearPart lib v0 v1 = L := by
  obtain ⟨AT, hAT⟩ : ∃ AT : Matrix (Fin n) (Fin (d + d)) ℝ, AT = fun j => Fin.append (fun a => v0 a j) (fun a => v1 a j) := ⟨_, rfl⟩
  obtain ⟨r, hr⟩ : ∃ r, r = lib.svd n (d + d) AT := ⟨_, rfl⟩
  obtain ⟨hu, hv, hs0, hsa, hA⟩ := hl.1 n (d + d) AT
  rw [← hr] at hu hv hs0 hsa hA
  have hA0 : ∀ j a, AT j (Fin.castAdd d a) = v0 a j := fun j a => by rw [hAT]; simp
  have hA1 : ∀ j a, AT j (Fin.natAdd d a) = v1 a j := fun j a => by rw [hAT]; exact Fin.append_right _ _ a
  have hdm : d ≤ min n (d + d) := by omega
  -- the first singular values are positive
  have hspos : ∀ k : Fin d, 0 < r.s k := by
    intro k
    rcases lt_or_eq_of_le (hs0 k) with h | h
    · exact h
    exfalso
    let G : Matrix (Fin d) (Fin d) ℝ := fun l a => r.s l * r.vh (Fin.castAdd d l) (Fin.castAdd d a)
    have hG : G.det = 0 := Matrix.det_eq_zero_of_row_eq_zero k fun a => by simp [G, ← h]
    obtain ⟨x, hx, hGx⟩ := Matrix.exists_mulVec_eq_zero_iff.2 hG
    apply hx
    apply hfull
    intro j
    have : ∑ a, x a * v0 a j = ∑ l : Fin (min n (d + d)), r.u j ⟨l, by omega⟩ *
        (r.s l * ∑ a, r.vh ⟨l, by omega⟩ (Fin.castAdd d a) * x a) := by
      simp only [← hA0, hA, Finset.mul_sum]
      rw [Finset.sum_comm]
      refine Finset.sum_congr rfl fun l _ => Finset.sum_congr rfl fun a _ => by ring
    rw [this]
    refine Finset.sum_eq_zero fun l _ => ?_
    by_cases hl : l.val < d
    · have := congrFun hGx ⟨l, hl⟩
      simp only [Matrix.mulVec, dotProduct, G, Pi.zero_apply, mul_assoc, ← Finset.mul_sum] at this
      have e : (Fin.castAdd d ⟨l.val, hl⟩ : Fin (d + d)) = ⟨l, by omega⟩ := rfl
      rw [e] at this
      rw [this, mul_zero]
    · have : r.s l = 0 := le_antisymm ((hsa k l (by omega)).trans h.symm.le) (hs0 _)
      rw [this]; ring
  -- the rows with positive singular values
  have hrow : ∀ (k : Fin d) (c : Fin (d + d)), r.s k * r.vh (Fin.castAdd d k) c = ∑ j, r.u j ⟨k, by omega⟩ * AT j c := by
    intro k c
    simp only [hA, Finset.mul_sum]
    rw [Finset.sum_comm]
    have : ∀ l : Fin (min n (d + d)), ∑ j, r.u j ⟨k, by omega⟩ * (r.u j ⟨l, by omega⟩ * r.s l * r.vh ⟨l, by omega⟩ c) =
        if l.val = k.val then r.s l * r.vh ⟨l, by omega⟩ c else 0 := by
      intro l
      have h := congrFun (congrFun hu ⟨k, by omega⟩) ⟨l, by omega⟩
      rw [Matrix.mul_apply, Matrix.one_apply] at h
      simp only [transpose_apply, Fin.mk.injEq] at h
      have e : ∑ j, r.u j ⟨k, by omega⟩ * (r.u j ⟨l, by omega⟩ * r.s l * r.vh ⟨l, by omega⟩ c) =
          (∑ j, r.u j ⟨k, by omega⟩ * r.u j ⟨l, by omega⟩) * (r.s l * r.vh ⟨l, by omega⟩ c) := by
        rw [Finset.sum_mul]
        exact Finset.sum_congr rfl fun j _ => by ring
      rw [e, h]
      by_cases hkl : k.val = l.val
      · rw [if_pos hkl, if_pos hkl.symm, one_mul]
      · rw [if_neg hkl, if_neg (Ne.symm hkl), zero_mul]
    rw [Finset.sum_congr rfl fun l _ => this l]
    rw [Finset.sum_eq_single (⟨k, by omega⟩ : Fin (min n (d + d)))]
    · rw [if_pos rfl]
      rfl
    · intro l _ h
      rw [if_neg]
      intro h'
      exact h (Fin.ext h')
    · intro h
      exact absurd (Finset.mem_univ _) h
  have hCL : ∀ (k a : Fin d), r.vh (Fin.castAdd d k) (Fin.natAdd d a) = ∑ b, L a b * r.vh (Fin.castAdd d k) (Fin.castAdd d b) := by
    intro k a
    apply mul_left_cancel₀ (hspos k).ne'
    rw [hrow, Finset.mul_sum]
    have : ∀ b, r.s k * (L a b * r.vh (Fin.castAdd d k) (Fin.castAdd d b)) = ∑ j, r.u j ⟨k, by omega⟩ * (L a b * v0 b j) := by
      intro b
      rw [mul_left_comm, hrow, Finset.mul_sum]
      simp only [hA0]
      exact Finset.sum_congr rfl fun j _ => by ring
    simp only [this]
    rw [Finset.sum_comm]
    refine Finset.sum_congr rfl fun j _ => ?_
    rw [hA1, hL, Matrix.mul_apply, Finset.mul_sum]
  obtain ⟨B, hB⟩ : ∃ B : Matrix (Fin d) (Fin d) ℝ, B = Matrix.of fun a b => r.vh (Fin.castAdd d b) (Fin.castAdd d a) := ⟨_, rfl⟩
  have hBdet : B.det ≠ 0 := by
    intro h0
    obtain ⟨x, hx, hBx⟩ := Matrix.exists_mulVec_eq_zero_iff.2 h0
    apply hx
    have hz0 : ∀ a : Fin d, ∑ k, r.vh (Fin.castAdd d k) (Fin.castAdd d a) * x k = 0 := by
      intro a
      have := congrFun hBx a
      simpa [Matrix.mulVec, dotProduct, hB] using this
    have hz1 : ∀ a : Fin d, ∑ k, r.vh (Fin.castAdd d k) (Fin.natAdd d a) * x k = 0 := by
      intro a
      simp only [hCL, Finset.sum_mul]
      rw [Finset.sum_comm]
      refine Finset.sum_eq_zero fun b _ => ?_
      simp only [mul_assoc, ← Finset.mul_sum, hz0, mul_zero]
    have hz : ∀ c : Fin (d + d), ∑ k, r.vh (Fin.castAdd d k) c * x k = 0 := fun c => Fin.addCases hz0 hz1 c
    ext l
    have : ∑ c, (∑ k, r.vh (Fin.castAdd d k) c * x k) * r.vh (Fin.castAdd d l) c = x l := by
      have e : ∀ k : Fin d, ∑ c, r.vh (Fin.castAdd d k) c * r.vh (Fin.castAdd d l) c = if k = l then 1 else 0 := by
        intro k
        have h := congrFun (congrFun hv (Fin.castAdd d k)) (Fin.castAdd d l)
        rw [Matrix.mul_apply, Matrix.one_apply] at h
        simpa using h
      simp only [Finset.sum_mul]
      rw [Finset.sum_comm]
      have : ∀ k : Fin d, ∑ c, r.vh (Fin.castAdd d k) c * x k * r.vh (Fin.castAdd d l) c = (if k = l then 1 else 0) * x k := by
        intro k
        rw [← e k, Finset.sum_mul]
        exact Finset.sum_congr rfl fun c _ => by ring
      simp [this]
    rw [← this]
    simp [hz]
  have hC : (Matrix.of fun a b => r.vh (Fin.castAdd d b) (Fin.natAdd d a) : Matrix (Fin d) (Fin d) ℝ) = L * B := by
    ext a b
    rw [Matrix.mul_apply, hB]
    exact hCL b a
  have hunit : IsUnit B.det := isUnit_iff_ne_zero.2 hBdet
  have hp := (hl.2.1 d B).1
  have hBp : B * lib.pinv d B = 1 := by
    have := congrArg (· * B⁻¹) hp
    simpa [Matrix.mul_assoc, Matrix.mul_nonsing_inv B hunit] using this
  have : shearPart lib v0 v1 = (Matrix.of fun a b => r.vh (Fin.castAdd d b) (Fin.natAdd d a)) * lib.pinv d B := by
    rw [hB, hr, hAT]
    rfl
  rw [this, hC, Matrix.mul_assoc, hBp, Matrix.mul_one]

/-- C107: by default, if the first points do not lie in a plane (a line in two dimensions) and an affine transformation takes them to the
second points, its matrix is the result. -/
theorem c107_affine_partial (lib : RegLib) (hl : IsRegLib lib) {d n : Nat} (hd : 2 ≤ d) (hn : d ≤ n) (v0 v1 : Fin d → Fin n → ℝ)
    (scale usesvd : Bool) (hfull : ∀ (x : Fin d → ℝ) (c : ℝ), (∀ j, ∑ a, x a * v0 a j = c) → x = 0)
    (M : Matrix (Fin (d + 1)) (Fin (d + 1)) ℝ) (hM : IsAffineN M) (hv : ∀ j, image M (fun b => v0 b j) = fun a => v1 a j) :
    affineFromPoints lib v0 v1 true scale usesvd = .ok (some M) := by
  obtain ⟨L, t, rfl⟩ : ∃ L t, M = homN L t := ⟨_, _, homN_ext hM⟩
  have ht : ∀ a j, v1 a j = ∑ b, L a b * v0 b j + t a := by
    intro a j
    have := congrFun (hv j) a
    rw [image_homN] at this
    exact this.symm
  have hn0 : (n : ℝ) ≠ 0 := by
    have : 0 < n := by omega
    positivity
  have hm : ∀ a, negMean v1 a = (∑ b, L a b * negMean v0 b) - t a := by
    intro a
    simp only [negMean, ht, Finset.sum_add_distrib, Finset.sum_const, Finset.card_univ, Fintype.card_fin, nsmul_eq_mul]
    rw [Finset.sum_comm]
    simp only [← Finset.mul_sum, mul_neg, Finset.sum_neg_distrib, mul_div_assoc', ← Finset.sum_div]
    field_simp
    ring
  have hc : centred v1 = L * centred v0 := by
    ext a j
    rw [Matrix.mul_apply]
    simp only [centred, ht, hm, mul_add, Finset.sum_add_distrib]
    ring
  have hs : shearPart lib (centred v0) (centred v1) = L := by
    refine shear_exact hl hd hn _ _ L hc fun x hx => hfull x (-∑ a, x a * negMean v0 a) fun j => ?_
    have := hx j
    simp only [centred, mul_add, Finset.sum_add_distrib] at this
    linarith
  rw [fromPoints_shear lib hd hn, hs, moveBack_homN]
  congr 3
  ext a
  rw [hm]
  simp only [Matrix.mulVec, dotProduct]
  ring

/-! where the result is not what a user expects -/

/-- C107: the check lets points pass that lie in a line.  Then some affine transformation takes the first points to the second ones,
but the result need not: here, with two points in two dimensions, as many as the documentation asks for, it takes all points to one. -/
theorem c107_few_points : ∃ lib, IsRegLib lib ∧ ∃ (v0 v1 : Fin 2 → Fin 2 → ℝ) (M' M : Matrix (Fin 3) (Fin 3) ℝ),
    IsAffineN (d := 2) M' ∧ (∀ j, image (d := 2) M' (fun b => v0 b j) = fun a => v1 a j) ∧
      affineFromPoints lib v0 v1 true true true = .ok (some M) ∧ ∀ j, image (d := 2) M (fun b => v0 b j) ≠ fun a => v1 a j := by
  obtain ⟨lib, h1, h2, h3, h4⟩ := exists_regLib
  obtain ⟨c, hc⟩ : ∃ c : ℝ, c = √(1 / 2) := ⟨_, rfl⟩
  have hcc : c * c = 1 / 2 := by rw [hc]; exact Real.mul_self_sqrt (by norm_num)
  have hc0 : 0 ≤ c := hc ▸ Real.sqrt_nonneg _
  let X : Matrix (Fin 2) (Fin (2 + 2)) ℝ := !![3, 0, 4, 0; -3, 0, -4, 0]
  let vh : Matrix (Fin (2 + 2)) (Fin (2 + 2)) ℝ := !![3 / 5, 0, 4 / 5, 0; 4 / 5, 0, -(3 / 5), 0; 0, 1, 0, 0; 0, 0, 0, 1]
  let r : Svd 2 (2 + 2) := ⟨!![c, c; -c, c], fun k => if k = 0 then 10 * c else 0, vh⟩
  let B : Matrix (Fin 2) (Fin 2) ℝ := !![3 / 5, 4 / 5; 0, 0]
  let G : Matrix (Fin 2) (Fin 2) ℝ := !![3 / 5, 0; 4 / 5, 0]
  have hr : IsSvd X r.u r.s r.vh := by
    refine ⟨?_, ?_, ?_, ?_, ?_⟩
    · ext i j
      fin_cases i <;> fin_cases j <;> simp [r, Matrix.mul_apply, Fin.sum_univ_two] <;> linarith
    · ext i j
      fin_cases i <;> fin_cases j <;> simp [r, vh, Matrix.mul_apply, Fin.sum_univ_four] <;> norm_num
    · intro k
      by_cases h : k = 0 <;> simp [r, h, hc0]
    · intro k l hkl
      by_cases h : k = 0
      · by_cases h' : l = 0 <;> simp [r, h, h', hc0]
      · simp [r, h, show l ≠ 0 by omega]
    · intro i j
      have : min 2 (2 + 2) = 2 := rfl
      change X i j = ∑ k : Fin 2, r.u i ⟨k, _⟩ * r.s k * r.vh ⟨k, _⟩ j
      rw [Fin.sum_univ_two]
      fin_cases i <;> fin_cases j <;> simp [X, r, vh] <;> linarith
  have hG : IsMoorePenrose B G := by
    refine ⟨?_, ?_, ?_, ?_⟩ <;>
    · ext i j
      fin_cases i <;> fin_cases j <;> simp [B, G, Matrix.mul_apply, Fin.sum_univ_two] <;> norm_num
  let lib' : RegLib := { lib with
    svd := Function.update lib.svd 2 (Function.update (lib.svd 2) (2 + 2) (Function.update (lib.svd 2 (2 + 2)) X r))
    pinv := Function.update lib.pinv 2 (Function.update (lib.pinv 2) B G) }
  have hsvd : lib'.svd 2 (2 + 2) X = r := by simp only [lib', Function.update_self]
  have hpinv : lib'.pinv 2 B = G := by simp only [lib', Function.update_self]
  refine ⟨lib', ⟨?_, ?_, h3, h4⟩, ?_⟩
  · intro m n A
    by_cases hm : m = 2
    · subst hm
      by_cases hn : n = 2 + 2
      · subst hn
        by_cases hA : A = X
        · subst hA
          rw [hsvd]
          exact hr
        · have : lib'.svd 2 (2 + 2) A = lib.svd 2 (2 + 2) A := by simp only [lib', Function.update_self, Function.update_of_ne hA]
          rw [this]
          exact h1 _ _ _
      · have : lib'.svd 2 n A = lib.svd 2 n A := by simp only [lib', Function.update_self, Function.update_of_ne hn]
        rw [this]
        exact h1 _ _ _
    · have : lib'.svd m n A = lib.svd m n A := by simp only [lib', Function.update_of_ne hm]
      rw [this]
      exact h1 _ _ _
  · intro n A
    by_cases hn : n = 2
    · subst hn
      by_cases hA : A = B
      · subst hA
        rw [hpinv]
        exact hG
      · have : lib'.pinv 2 A = lib.pinv 2 A := by simp only [lib', Function.update_self, Function.update_of_ne hA]
        rw [this]
        exact h2 _ _
    · have : lib'.pinv n A = lib.pinv n A := by simp only [lib', Function.update_of_ne hn]
      rw [this]
      exact h2 _ _
  · have hc0' : centred ![![3, -3], ![0, 0]] = !![(3 : ℝ), -3; 0, 0] := by
      ext a j
      fin_cases a <;> fin_cases j <;> simp [centred, negMean, Fin.sum_univ_two]
    have hc1' : centred ![![4, -4], ![0, 0]] = !![(4 : ℝ), -4; 0, 0] := by
      ext a j
      fin_cases a <;> fin_cases j <;> simp [centred, negMean, Fin.sum_univ_two]
    have hsh : shearPart lib' (!![3, -3; 0, 0] : Matrix (Fin 2) (Fin 2) ℝ) !![4, -4; 0, 0] = 0 := by
      have hX : (fun j => Fin.append (fun a => (!![3, -3; 0, 0] : Matrix (Fin 2) (Fin 2) ℝ) a j)
          (fun a => (!![4, -4; 0, 0] : Matrix (Fin 2) (Fin 2) ℝ) a j) : Matrix (Fin 2) (Fin (2 + 2)) ℝ) = X := by
        ext j b
        fin_cases j <;> fin_cases b <;> simp [X, Fin.append, Fin.addCases]
      unfold shearPart
      simp only [hX, hsvd]
      have hBe : (Matrix.of fun a b => r.vh (Fin.castAdd 2 b) (Fin.castAdd 2 a) : Matrix (Fin 2) (Fin 2) ℝ) = B := by
        ext a b
        fin_cases a <;> fin_cases b <;> rfl
      rw [hBe, hpinv]
      ext a b
      rw [Matrix.mul_apply, Fin.sum_univ_two]
      change vh (Fin.castAdd 2 0) (Fin.natAdd 2 a) * G 0 b + vh (Fin.castAdd 2 1) (Fin.natAdd 2 a) * G 1 b = 0
      fin_cases a <;> fin_cases b <;> simp [vh, G] <;> norm_num
    refine ⟨![![3, -3], ![0, 0]], ![![4, -4], ![0, 0]], homN !![4 / 3, 0; 0, 1] 0,
      moveBack ![![3, -3], ![0, 0]] ![![4, -4], ![0, 0]] (homN 0 0), affine_homN _ _, ?_, ?_, ?_⟩
    · intro j
      ext a
      rw [image_homN]
      fin_cases j <;> fin_cases a <;> simp [Matrix.mulVec, dotProduct, Fin.sum_univ_two]
    · rw [fromPoints_shear lib' le_rfl le_rfl, hc0', hc1', hsh]
    · intro j h
      have := congrFun h 0
      rw [image_moveBack] at this
      fin_cases j <;> simp [negMean, Fin.sum_univ_two] at this

/-- C107: with scale the result need not be the best rotation, scaling and translation, whatever the functions of numpy return. -/
theorem c107_scale_not_best : ∃ v0 v1 : Fin 2 → Fin 3 → ℝ, ∀ lib, IsRegLib lib → ∀ usesvd,
    ∃ M M' k, affineFromPoints lib v0 v1 false true usesvd = .ok (some M) ∧ 0 < k ∧ IsSimilarity (d := 2) k M' ∧
      sqDist (d := 2) M' v0 v1 < sqDist (d := 2) M v0 v1 := by
  refine ⟨![![1, -1, 0], ![0, 0, 0]], ![![1, -1, 0], ![1, 1, -2]], fun lib hl usesvd => ?_⟩
  have hc0 : centred ![![1, -1, 0], ![0, 0, 0]] = !![(1 : ℝ), -1, 0; 0, 0, 0] := by
    ext a j
    fin_cases a <;> fin_cases j <;> simp [centred, negMean, Fin.sum_univ_three]
  have hc1 : centred ![![1, -1, 0], ![1, 1, -2]] = !![(1 : ℝ), -1, 0; 1, 1, -2] := by
    ext a j
    fin_cases a <;> fin_cases j <;> simp [centred, negMean, Fin.sum_univ_three] <;> norm_num
  have hf0 : frob (centred ![![1, -1, 0], ![0, 0, 0]]) = 2 := by
    rw [hc0]; simp [frob, Fin.sum_univ_three, Fin.sum_univ_two]; norm_num
  have hf1 : frob (centred ![![1, -1, 0], ![1, 1, -2]]) = 8 := by
    rw [hc1]; simp [frob, Fin.sum_univ_three, Fin.sum_univ_two]; norm_num
  obtain ⟨hR, -⟩ := rigid_spec hl (by norm_num : 0 < 2) usesvd (centred ![![1, -1, 0], ![0, 0, 0]]) (centred ![![1, -1, 0], ![1, 1, -2]])
  have e := fromPoints_scale lib le_rfl (by norm_num : 2 ≤ 3) ![![1, -1, 0], ![0, 0, 0]] ![![1, -1, 0], ![1, 1, -2]] usesvd
  rw [if_neg (by rw [hf0]; norm_num), hf0, hf1] at e
  have h2 : √(8 / 2 : ℝ) = 2 := by
    rw [show (8 / 2 : ℝ) = 2 ^ 2 by norm_num]
    exact Real.sqrt_sq (by norm_num)
  rw [h2] at e
  refine ⟨_, 1, 1, e, one_pos, ⟨?_, 1, ⟨by simp, by simp⟩, fun a b => ?_⟩, ?_⟩
  · intro b
    simp [Matrix.one_apply, eq_comm]
  · simp [Matrix.one_apply]
  · rw [sqDist_moveBack, frob_sim hR.1, hf0, hf1]
    have hcov : covar (centred ![![1, -1, 0], ![0, 0, 0]]) (centred ![![1, -1, 0], ![1, 1, -2]])
        (rigidPart lib (by norm_num : 0 < 2) usesvd (centred ![![1, -1, 0], ![0, 0, 0]]) (centred ![![1, -1, 0], ![1, 1, -2]])) ≤ 2 := by
      generalize rigidPart lib (by norm_num : 0 < 2) usesvd (centred ![![1, -1, 0], ![0, 0, 0]]) (centred ![![1, -1, 0], ![1, 1, -2]]) = R at hR
      rw [covar_sum, hc0, hc1]
      have := orth_entry_le hR.1 0 0
      simp [Fin.sum_univ_two, Fin.sum_univ_three]
      linarith
    have hs : sqDist (d := 2) 1 ![![1, -1, 0], ![0, 0, 0]] ![![1, -1, 0], ![1, 1, -2]] = 6 := by
      rw [← homN_one]
      simp only [sqDist, image_homN, Fin.sum_univ_two, Fin.sum_univ_three, Matrix.one_mulVec]
      simp
      norm_num
    rw [hs]
    linarith

/-! the hypotheses can be met -/

/-- three points that are not in a line, and a transformation with shear -/
example : ∃ lib, IsRegLib lib ∧ affineFromPoints lib (![![0, 1, 0], ![0, 0, 1]] : Fin 2 → Fin 3 → ℝ) ![![5, 6, 7], ![1, 1, 4]] true true true =
    .ok (some (homN !![1, 2; 0, 3] ![5, 1])) := by
  obtain ⟨lib, hl⟩ := exists_regLib
  refine ⟨lib, hl, c107_affine_partial lib hl le_rfl (by norm_num) _ _ true true ?_ _ (affine_homN _ _) ?_⟩
  · intro x c h
    have h0 := h 0
    have h1 := h 1
    have h2 := h 2
    simp [Fin.sum_univ_two] at h0 h1 h2
    ext a
    fin_cases a <;> simp <;> linarith
  · intro j
    ext a
    rw [image_homN]
    fin_cases j <;> fin_cases a <;> simp [Matrix.mulVec, dotProduct, Fin.sum_univ_two] <;> norm_num

/-- a quarter of a turn, a scaling by two and a translation -/
example : ∃ lib, IsRegLib lib ∧ ∃ M, affineFromPoints lib (![![0, 1, 0], ![0, 0, 1]] : Fin 2 → Fin 3 → ℝ) ![![5, 5, 3], ![1, 3, 1]] false true true =
    .ok (some M) ∧ IsSimilarity (d := 2) 2 M := by
  obtain ⟨lib, hl⟩ := exists_regLib
  have hM : IsSimilarity (d := 2) 2 (homN !![0, -2; 2, 0] ![5, 1]) := by
    refine ⟨affine_homN _ _, !![0, -1; 1, 0], ⟨?_, ?_⟩, fun a b => ?_⟩
    · ext i j
      fin_cases i <;> fin_cases j <;> simp [Matrix.mul_apply, Fin.sum_univ_two]
    · simp [Matrix.det_fin_two]
    · rw [homN_cc]
      fin_cases a <;> fin_cases b <;> simp
  obtain ⟨M, h1, h2, -⟩ := c107_scale lib hl le_rfl (by norm_num) (![![0, 1, 0], ![0, 0, 1]] : Fin 2 → Fin 3 → ℝ) ![![5, 5, 3], ![1, 3, 1]] true
    ⟨0, 0, 1, by simp⟩ 2 (by norm_num) _ hM (fun j => by
      ext a
      rw [image_homN]
      fin_cases j <;> fin_cases a <;> simp [Matrix.mulVec, dotProduct, Fin.sum_univ_two] <;> norm_num)
  exact ⟨lib, hl, M, h1, h2⟩

end Electrode
