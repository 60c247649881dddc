import Mathlib.Analysis.InnerProductSpace.Spectrum
import Mathlib.Analysis.InnerProductSpace.PiL2
import Mathlib.Analysis.Matrix.Hermitian
import Mathlib.LinearAlgebra.Matrix.PosDef
import Mathlib.Analysis.Matrix.Spectrum

/-! Every real matrix has a singular value decomposition. -/
namespace Electrode
open Matrix

/-- `u`, `s` and `vh` are a singular value decomposition of `A`: `u` and `vh` are orthogonal, `s` is not negative and does not increase,
and `A` is the product of `u`, the matrix with the diagonal `s`, and `vh` -/
def IsSvd {m n : Nat} (A : Matrix (Fin m) (Fin n) ℝ) (u : Matrix (Fin m) (Fin m) ℝ) (s : Nat → ℝ) (vh : Matrix (Fin n) (Fin n) ℝ) : Prop :=
  uᵀ * u = 1 ∧ vh * vhᵀ = 1 ∧ (∀ k, 0 ≤ s k) ∧ (∀ k l, k ≤ l → s l ≤ s k) ∧
    ∀ (i : Fin m) (j : Fin n), A i j = ∑ k : Fin (min m n), u i ⟨k, by omega⟩ * s k * vh ⟨k, by omega⟩ j

theorem exists_eig_sorted {n : Nat} (K : Matrix (Fin n) (Fin n) ℝ) (hK : K.IsHermitian) :
    ∃ (b : OrthonormalBasis (Fin n) ℝ (EuclideanSpace ℝ (Fin n))) (w : Fin n → ℝ), Antitone w ∧
      ∀ k, K *ᵥ (b k).ofLp = w k • (b k).ofLp := by
  have hs := (isSymmetric_toEuclideanLin_iff.mpr hK)
  have hf : Module.finrank ℝ (EuclideanSpace ℝ (Fin n)) = n := finrank_euclideanSpace_fin
  refine ⟨hs.eigenvectorBasis hf, hs.eigenvalues hf, LinearMap.IsSymmetric.eigenvalues_antitone .., fun k => ?_⟩
  have := congrArg WithLp.ofLp (hs.apply_eigenvectorBasis hf k)
  exact this

theorem exists_isSvd {m n : Nat} (A : Matrix (Fin m) (Fin n) ℝ) : ∃ u s vh, IsSvd A u s vh := by
  have hK : (Aᵀ * A).IsHermitian := by
    have := isHermitian_conjTranspose_mul_self A
    simpa using this
  obtain ⟨b, w, hw, hb⟩ := exists_eig_sorted _ hK
  have hbb : ∀ k l, (b k).ofLp ⬝ᵥ (b l).ofLp = if k = l then 1 else 0 := by
    intro k l
    have := orthonormal_iff_ite.1 b.orthonormal l k
    rw [EuclideanSpace.inner_eq_star_dotProduct] at this
    simp only [star_trivial] at this
    rw [this]; simp [eq_comm]
  have hAA : ∀ k l, (A *ᵥ (b k).ofLp) ⬝ᵥ (A *ᵥ (b l).ofLp) = if k = l then w k else 0 := by
    intro k l
    rw [dotProduct_mulVec, ← mulVec_transpose, mulVec_mulVec, hb, smul_dotProduct, hbb]
    split <;> simp
  have hw0 : ∀ k, 0 ≤ w k := by
    intro k
    have := hAA k k
    rw [if_pos rfl] at this
    rw [← this]
    exact Finset.sum_nonneg fun i _ => mul_self_nonneg _
  have hzero : ∀ k, w k = 0 → A *ᵥ (b k).ofLp = 0 := by
    intro k hk
    have := hAA k k
    rw [if_pos rfl, hk] at this
    exact dotProduct_self_eq_zero.1 this
  have hpos : ∀ k, 0 < w k → 0 < √(w k) := fun k h => Real.sqrt_pos.2 h
  -- the left vectors
  let f : Fin n → EuclideanSpace ℝ (Fin m) := fun k => WithLp.toLp 2 ((√(w k))⁻¹ • (A *ᵥ (b k).ofLp))
  have hff : ∀ k l, 0 < w k → 0 < w l → inner ℝ (f k) (f l) = if k = l then (1 : ℝ) else 0 := by
    intro k l hk hl
    rw [EuclideanSpace.inner_eq_star_dotProduct]
    simp only [f, star_trivial, smul_dotProduct, dotProduct_smul, hAA, smul_eq_mul]
    by_cases e : k = l
    · subst e
      rw [if_pos rfl, if_pos rfl]
      have := hpos k hk
      have h2 := Real.mul_self_sqrt (hw0 k)
      field_simp
      nlinarith
    · rw [if_neg (Ne.symm e), if_neg e]; simp
  have hlt : ∀ k : Fin n, 0 < w k → k.val < m := by
    intro k hk
    have ho : Orthonormal ℝ (fun i : Fin (k.val + 1) => f ⟨i, by omega⟩) := by
      rw [orthonormal_iff_ite]
      intro i j
      have hi : 0 < w ⟨i, by omega⟩ := lt_of_lt_of_le hk (hw (Fin.mk_le_of_le_val (by omega)))
      have hj : 0 < w ⟨j, by omega⟩ := lt_of_lt_of_le hk (hw (Fin.mk_le_of_le_val (by omega)))
      rw [hff _ _ hi hj]
      simp [Fin.ext_iff]
    have := ho.linearIndependent.fintype_card_le_finrank
    simp at this
    omega
  let v : Fin m → EuclideanSpace ℝ (Fin m) := fun i => if h : i.val < n then f ⟨i, h⟩ else 0
  let S : Set (Fin m) := {i | ∃ h : i.val < n, 0 < w ⟨i, h⟩}
  have hv : Orthonormal ℝ (S.domRestrict v) := by
    rw [orthonormal_iff_ite]
    rintro ⟨i, hi, hi'⟩ ⟨j, hj, hj'⟩
    change inner ℝ (v i) (v j) = _
    simp only [v, hi, hj, dif_pos]
    rw [hff _ _ hi' hj']
    simp [Fin.ext_iff]
  obtain ⟨c, hc⟩ := hv.exists_orthonormalBasis_extension_of_card_eq (by simp)
  have hcc : ∀ k l, (c k).ofLp ⬝ᵥ (c l).ofLp = if k = l then 1 else 0 := by
    intro k l
    have := orthonormal_iff_ite.1 c.orthonormal l k
    rw [EuclideanSpace.inner_eq_star_dotProduct] at this
    simp only [star_trivial] at this
    rw [this]; simp [eq_comm]
  let vh : Matrix (Fin n) (Fin n) ℝ := fun k j => (b k).ofLp j
  have hvh : vh * vhᵀ = 1 := by
    ext k l
    rw [Matrix.one_apply, ← hbb k l]
    rfl
  have hvh' : vhᵀ * vh = 1 := mul_eq_one_comm.1 hvh
  refine ⟨fun i k => (c k).ofLp i, fun k => if h : k < n then √(w ⟨k, h⟩) else 0, vh, ?_, hvh, ?_, ?_, ?_⟩
  · ext k l
    rw [Matrix.one_apply, ← hcc k l]
    rfl
  · intro k
    dsimp only
    split
    · exact Real.sqrt_nonneg _
    · exact le_rfl
  · intro k l hkl
    by_cases h : l < n
    · have h' : k < n := by omega
      simp only [h, h', dif_pos]
      exact Real.sqrt_le_sqrt (hw (by simpa using hkl))
    · simp only [h, dif_neg, not_false_eq_true]
      split
      · exact Real.sqrt_nonneg _
      · exact le_rfl
  · intro i j
    have hA : A i j = ∑ k, (A *ᵥ (b k).ofLp) i * (b k).ofLp j := by
      have h1 : A = (A * vhᵀ) * vh := by rw [Matrix.mul_assoc, hvh', Matrix.mul_one]
      have h2 := congrFun (congrFun h1 i) j
      rw [h2, Matrix.mul_apply]
      rfl
    rw [hA]
    have hterm : ∀ k : Fin n, (A *ᵥ (b k).ofLp) i * (b k).ofLp j =
        if h : k.val < m then (c ⟨k, h⟩).ofLp i * √(w k) * (b k).ofLp j else 0 := by
      intro k
      rcases lt_or_eq_of_le (hw0 k) with hk | hk
      · rw [dif_pos (hlt k hk)]
        have := hc ⟨k, hlt k hk⟩ ⟨k.isLt, hk⟩
        have hck : (c ⟨k, hlt k hk⟩).ofLp i = (√(w k))⁻¹ * (A *ᵥ (b k).ofLp) i := by
          rw [this]; simp [v, f]
        rw [hck]
        have := (hpos k hk).ne'
        field_simp
      · rw [hzero k hk.symm, ← hk]
        simp
    rw [Finset.sum_congr rfl fun k _ => hterm k]
    rw [← Finset.sum_subset (Finset.subset_univ (Finset.univ.map ⟨fun k : Fin (min m n) => (⟨k, by omega⟩ : Fin n), fun a b h => by
      simpa [Fin.ext_iff] using h⟩))]
    · rw [Finset.sum_map]
      refine Finset.sum_congr rfl fun k _ => ?_
      have h1 : k.val < m := by omega
      have h2 : k.val < n := by omega
      simp only [h2, dif_pos]
      exact dif_pos h1
    · intro k _ hk
      rw [dif_neg]
      intro h
      apply hk
      simp only [Finset.mem_map, Finset.mem_univ, true_and]
      exact ⟨⟨k, by omega⟩, rfl⟩

end Electrode
