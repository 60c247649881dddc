import Verif.Props.FromMatrix

/-
C106, continued: the arguments of a shear, and what happens for other choices of the eigenvectors.
-/
namespace Electrode

open Matrix Spec

/-! ### shears -/

theorem shear_along {angle : ℝ} {d p n : Fin 3 → ℝ} (hn : n ≠ 0) (hd : d ≠ 0) (hdn : dot3 d n = 0) : shearMatrix angle d p n =
    .ok (along (fun a => -Real.tan angle * unitVector d a) (unitVector n) (dot3 p (unitVector n))) := by
  obtain ⟨-, hn1⟩ := unit_dot hn
  obtain ⟨-, hd1⟩ := unit_dot hd
  have h0 : dot3 (unitVector n) (unitVector d) = 0 := by
    simp only [unitVector, dot3] at hdn ⊢
    linear_combination hdn / (√(∑ i, n i * n i) * √(∑ i, d i * d i))
  unfold shearMatrix along
  simp only [vdot_three, h0]
  rw [if_neg (by norm_num)]
  congr 2
  · funext a b; ring
  · funext a; ring

theorem norm_three (v : Fin 3 → ℝ) : vectorNorm v = √(dot3 v v) := by
  unfold vectorNorm dot3
  rw [Fin.sum_univ_three]

theorem norm_scaled {u : Fin 3 → ℝ} (hu : dot3 u u = 1) (k : ℝ) : vectorNorm (fun a => k * u a) = |k| := by
  rw [norm_three, ← Real.sqrt_sq_eq_abs]
  congr 1
  simp only [dot3] at hu ⊢
  linear_combination k ^ 2 * hu

/-- the cross product of two vectors in a plane is along the normal of the plane -/
theorem cross_plane {u a b : Fin 3 → ℝ} (hu : dot3 u u = 1) (ha : dot3 u a = 0) (hb : dot3 u b = 0) : ∃ k, vcross a b = fun i => k * u i := by
  refine ⟨dot3 u (vcross a b), ?_⟩
  simp only [dot3] at hu ha hb
  funext i
  fin_cases i <;> simp [vcross, dot3]
  · linear_combination -(a 1 * b 2 - a 2 * b 1) * hu + (u 1 * b 2 - u 2 * b 1) * ha - (u 1 * a 2 - u 2 * a 1) * hb
  · linear_combination -(a 2 * b 0 - a 0 * b 2) * hu + (u 2 * b 0 - u 0 * b 2) * ha - (u 2 * a 0 - u 0 * a 2) * hb
  · linear_combination -(a 0 * b 1 - a 1 * b 0) * hu + (u 0 * b 1 - u 1 * b 0) * ha - (u 0 * a 1 - u 1 * a 0) * hb

theorem norm_nonneg3 (v : Fin 3 → ℝ) : 0 ≤ vectorNorm v := Real.sqrt_nonneg _

/-- the longest of the cross products -/
theorem bestNormal_spec (V : List (Fin 3 → ℝ)) : (bestNormal V).2 = vectorNorm (bestNormal V).1 ∧
    ((bestNormal V).1 = vcross (V.getD 0 0) (V.getD 1 0) ∨ (bestNormal V).1 = vcross (V.getD 0 0) (V.getD 2 0) ∨
      (bestNormal V).1 = vcross (V.getD 1 0) (V.getD 2 0)) ∧
    vectorNorm (vcross (V.getD 0 0) (V.getD 1 0)) ≤ (bestNormal V).2 ∧ vectorNorm (vcross (V.getD 0 0) (V.getD 2 0)) ≤ (bestNormal V).2 ∧
    vectorNorm (vcross (V.getD 1 0) (V.getD 2 0)) ≤ (bestNormal V).2 := by
  unfold bestNormal
  simp only [List.foldl_cons, List.foldl_nil]
  have hx : (-1 : ℝ) < vectorNorm (vcross (V.getD 0 0) (V.getD 1 0)) := by
    linarith [norm_nonneg3 (vcross (V.getD 0 0) (V.getD 1 0))]
  rw [if_pos hx]
  generalize vcross (V.getD 0 0) (V.getD 1 0) = x at *
  generalize vcross (V.getD 0 0) (V.getD 2 0) = y
  generalize vcross (V.getD 1 0) (V.getD 2 0) = z
  by_cases h1 : vectorNorm x < vectorNorm y
  · rw [if_pos h1]
    by_cases h2 : vectorNorm y < vectorNorm z
    · rw [if_pos h2]
      exact ⟨rfl, Or.inr (Or.inr rfl), by linarith, h2.le, le_rfl⟩
    · rw [if_neg h2]
      exact ⟨rfl, Or.inr (Or.inl rfl), h1.le, le_rfl, not_lt.1 h2⟩
  · rw [if_neg h1]
    by_cases h2 : vectorNorm x < vectorNorm z
    · rw [if_pos h2]
      exact ⟨rfl, Or.inr (Or.inr rfl), h2.le, by linarith [not_lt.1 h1], le_rfl⟩
    · rw [if_neg h2]
      exact ⟨rfl, Or.inl rfl, le_rfl, not_lt.1 h1, not_lt.1 h2⟩

theorem eigPick_all {n : Nat} {e : Eigen n} {P : ℝ → Prop} (h : ∀ i, P (e i).1.re) :
    eigPick e P = (List.finRange n).map fun i k => ((e i).2 k).re := by
  unfold eigPick
  congr 1
  exact List.filter_eq_self.2 fun i _ => by simpa using h i

/-- C106: `shear_from_matrix` of a shear raises no exception, and what it gives makes the same matrix.  The result is finite if two of the
eigenvectors that `eig` finds have different directions and no fixed point that it finds is at infinity. -/
theorem c106_shear (L : EigLib) (hL : EigOk L) (angle : ℝ) (ht : Real.tan angle ≠ 0) (d p n : Fin 3 → ℝ) (hd : d ≠ 0) (hn : n ≠ 0)
    (hdn : dot3 d n = 0) :
    ∃ M r, shearMatrix angle d p n = .ok M ∧ shearFrom L M = .ok r ∧
      (∀ q, r = some q → shearMatrix q.1 q.2.1 q.2.2.1 q.2.2.2 = .ok M) ∧
      (Finite4 L M 1 → (∃ i j, vcross (fun k => ((L.eig3 (upper M) i).2 k).re) (fun k => ((L.eig3 (upper M) j).2 k).re) ≠ 0) → r ≠ none) := by
  rw [shear_along hn hd hdn]
  obtain ⟨hu, -⟩ := unit_dot hn
  obtain ⟨hd1, -⟩ := unit_dot hd
  have h0 : dot3 (unitVector d) (unitVector n) = 0 := by
    simp only [unitVector, dot3] at hdn ⊢
    linear_combination hdn / (√(∑ i, n i * n i) * √(∑ i, d i * d i))
  obtain ⟨u, hu'⟩ : ∃ u, u = unitVector n := ⟨_, rfl⟩
  obtain ⟨e, he⟩ : ∃ e, e = unitVector d := ⟨_, rfl⟩
  obtain ⟨t, ht'⟩ : ∃ t, t = Real.tan angle := ⟨_, rfl⟩
  rw [← hu', ← he] at h0
  rw [← hu'] at hu ⊢
  rw [← he] at hd1 ⊢
  rw [← ht'] at ht ⊢
  have hδ : dot3 (fun a => -t * e a) u = 0 := by
    simp only [dot3] at h0 ⊢
    linear_combination -t * h0
  have hne : (fun a => -t * e a) ≠ 0 := fun h => by
    have : ∀ a, e a = 0 := fun a => by
      have := congrFun h a
      simpa [ht] using this
    simp [dot3, this] at hd1
  obtain ⟨v, hv1, hv2, hv3⟩ := along_fixed (c := dot3 p u) hL hne hu (Or.inl hδ)
  obtain ⟨M, hM⟩ : ∃ M, M = along (fun a => -t * e a) u (dot3 p u) := ⟨_, rfl⟩
  rw [← hM] at hv1 hv3 ⊢
  have e3 := hL.three (upper M)
  have hw : ∀ i, (L.eig3 (upper M) i).1 = ((1 : ℝ) : ℂ) := by
    intro i
    rcases along_root (eigOf_quad (hL.three (upper M)) (by rw [hM]; exact along_quad3 _ u _) i) with h | h
    · exact h
    · rw [h, hδ, sub_zero]
  -- the plane that contains the eigenvectors
  have hperp : ∀ i, dot3 u (fun k => ((L.eig3 (upper M) i).2 k).re) = 0 := by
    intro i
    obtain ⟨hvec, -⟩ := eigOf_real e3 (hw i)
    obtain ⟨z, hz⟩ : ∃ z : Fin 3 → ℝ, z = fun k => ((L.eig3 (upper M) i).2 k).re := ⟨_, rfl⟩
    have hzk : ∀ k, ((L.eig3 (upper M) i).2 k).re = z k := fun k => by rw [hz]
    rw [← hz]
    simp only [hzk] at hvec
    rw [hM, along_upper] at hvec
    obtain ⟨a, ha⟩ := Function.ne_iff.1 hne
    simp only [Pi.zero_apply] at ha
    refine mul_left_cancel₀ ha ?_
    have := hvec a
    simp only [dot3]
    fin_cases a <;> simp [Fin.sum_univ_three, -mul_eq_zero] at this ⊢ <;> linear_combination this
  obtain ⟨V, hV⟩ : ∃ V, V = eigPick (L.eig3 (upper M)) fun w => |w - 1| < 1 / 10 ^ 4 := ⟨_, rfl⟩
  have hVe : V = [fun k => ((L.eig3 (upper M) 0).2 k).re, fun k => ((L.eig3 (upper M) 1).2 k).re, fun k => ((L.eig3 (upper M) 2).2 k).re] := by
    rw [hV, eigPick_all fun i => by rw [hw i]; norm_num]
    rfl
  obtain ⟨b1, b2, b3, b4, b5⟩ := bestNormal_spec V
  have hbu : ∃ k, (bestNormal V).1 = fun i => k * u i := by
    rw [hVe] at b2 ⊢
    rcases b2 with h | h | h <;> rw [h] <;> exact cross_plane hu (hperp _) (hperp _)
  obtain ⟨k, hk⟩ := hbu
  have hb : (bestNormal V).2 = |k| := by rw [b1, hk, norm_scaled hu]
  have hdir : ((upper M - 1).mulVec fun a => (bestNormal V).1 a / (bestNormal V).2) = fun a => t * (k / |k|) * e a := by
    rw [hM, along_upper, hk, hb]
    simp only [dot3] at hu
    funext a
    fin_cases a <;> simp [Matrix.mulVec, dotProduct, Fin.sum_univ_three]
    · linear_combination t * (k / |k|) * e 0 * hu
    · linear_combination t * (k / |k|) * e 1 * hu
    · linear_combination t * (k / |k|) * e 2 * hu
  have hkk : k ≠ 0 → k / |k| * (k / |k|) = 1 := fun h => by
    rw [div_mul_div_comm, abs_mul_abs_self, div_self (mul_ne_zero h h)]
  have hka : k ≠ 0 → |(k / |k|)| = 1 := fun h => by rw [abs_div, abs_abs, div_self (abs_ne_zero.2 h)]
  by_cases hk0 : k = 0
  · refine ⟨M, none, rfl, ?_, fun q hq => by simp at hq, ?_⟩
    · unfold shearFrom
      simp only [← hV]
      rw [if_neg (by rw [hVe]; simp), if_neg (by rw [hVe]; simp), hv1]
      simp only
      rw [if_pos (Or.inl (by rw [hb, hk0, abs_zero]))]
    · rintro - ⟨i, j, hij⟩
      exfalso
      rw [hb, hk0, abs_zero] at b3 b4 b5
      have hz : ∀ x : Fin 3 → ℝ, vectorNorm x ≤ 0 → x = 0 := by
        intro x hx
        rw [norm_three] at hx
        have h1 : dot3 x x ≤ 0 := Real.sqrt_eq_zero'.1 (le_antisymm hx (Real.sqrt_nonneg _))
        simp only [dot3] at h1
        funext a
        fin_cases a
        · exact mul_self_eq_zero.1 (by show x 0 * x 0 = 0; nlinarith [mul_self_nonneg (x 0), mul_self_nonneg (x 1), mul_self_nonneg (x 2)])
        · exact mul_self_eq_zero.1 (by show x 1 * x 1 = 0; nlinarith [mul_self_nonneg (x 0), mul_self_nonneg (x 1), mul_self_nonneg (x 2)])
        · exact mul_self_eq_zero.1 (by show x 2 * x 2 = 0; nlinarith [mul_self_nonneg (x 0), mul_self_nonneg (x 1), mul_self_nonneg (x 2)])
      rw [hVe] at b3 b4 b5
      have c3 := hz _ b3
      have c4 := hz _ b4
      have c5 := hz _ b5
      simp only [List.getD_cons_zero, List.getD_cons_succ] at c3 c4 c5
      have hself : ∀ x, vcross x x = 0 := fun x => by
        funext a
        fin_cases a <;> simp [vcross] <;> ring
      have hanti : ∀ x y, vcross x y = 0 → vcross y x = 0 := fun x y h => by
        have g0 := congrFun h 0
        have g1 := congrFun h 1
        have g2 := congrFun h 2
        simp [vcross] at g0 g1 g2
        funext a
        fin_cases a <;> simp [vcross] <;> linarith
      refine hij ?_
      fin_cases i <;> fin_cases j
      · exact hself _
      · exact c3
      · exact c4
      · exact hanti _ _ c3
      · exact hself _
      · exact c5
      · exact hanti _ _ c4
      · exact hanti _ _ c5
      · exact hself _
  have hang : vectorNorm (fun a => t * (k / |k|) * e a) = |t| := by rw [norm_scaled hd1, abs_mul, hka hk0, mul_one]
  refine ⟨M, (dehom v).map fun q => (Real.arctan |t|, fun a => t * (k / |k|) * e a / |t|, q, fun a => (bestNormal V).1 a / (bestNormal V).2), rfl, ?_, ?_, ?_⟩
  · unfold shearFrom
    simp only [← hV]
    rw [if_neg (by rw [hVe]; simp), if_neg (by rw [hVe]; simp), hv1]
    simp only
    rw [hdir, hang, if_neg]
    rw [hb]
    exact not_or.2 ⟨abs_ne_zero.2 hk0, abs_ne_zero.2 ht⟩
  · intro q hq
    obtain ⟨q', hq', rfl⟩ := Option.map_eq_some_iff.1 hq
    have hp := hv2 q' hq'
    simp only
    obtain ⟨s, hs⟩ : ∃ s, s = k / |k| := ⟨_, rfl⟩
    obtain ⟨g, hg⟩ : ∃ g, g = t / |t| := ⟨_, rfl⟩
    have hs2 : s * s = 1 := hs ▸ hkk hk0
    have hg2 : g * g = 1 := by rw [hg, div_mul_div_comm, abs_mul_abs_self, div_self (mul_ne_zero ht ht)]
    have hgt : |t| * g = t := by rw [hg, mul_div_cancel₀ _ (abs_ne_zero.2 ht)]
    have f1 : (fun a => t * (k / |k|) * e a / |t|) = fun a => g * s * e a := by
      funext a; rw [hg, hs]; ring
    have f2 : (fun a => (bestNormal V).1 a / (bestNormal V).2) = fun a => s * u a := by
      funext a; rw [hb, hk, hs]; ring
    rw [f1, f2]
    have d1 : dot3 (fun a => g * s * e a) (fun a => g * s * e a) = 1 := by
      simp only [dot3] at hd1 ⊢
      linear_combination g ^ 2 * s ^ 2 * hd1 + s ^ 2 * hg2 + hs2
    have d2 : dot3 (fun a => s * u a) (fun a => s * u a) = 1 := by
      simp only [dot3] at hu ⊢
      linear_combination s ^ 2 * hu + hs2
    have d3 : dot3 (fun a => g * s * e a) (fun a => s * u a) = 0 := by
      simp only [dot3] at h0 ⊢
      linear_combination g * s ^ 2 * h0
    have ne1 : ∀ x : Fin 3 → ℝ, dot3 x x = 1 → x ≠ 0 := fun x hx h => by
      rw [h] at hx
      simp [dot3] at hx
    rw [shear_along (ne1 _ d2) (ne1 _ d1) d3, unitVector_of_dot d1, unitVector_of_dot d2, Real.tan_arctan, hM,
      ← along_scaled (d := fun a => -t * e a) (u := u) (c := dot3 p u) hs2]
    have g1 : (fun a => -|t| * (g * s * e a)) = fun a => s * (-t * e a) := by
      funext a
      linear_combination -s * e a * hgt
    have g2 : dot3 q' (fun a => s * u a) = s * dot3 p u := by
      rw [← hp]; simp only [dot3]; ring
    rw [g1, g2]
  · intro hf _ h0
    obtain ⟨q, hq⟩ := hv3 hf
    rw [hq] at h0
    simp at h0

/-! ### eigenvectors exist -/

theorem det_vector {K : Type} [Field K] {n : Nat} {A : Matrix (Fin n) (Fin n) K} {w : K} (h : A.charpoly.eval w = 0) :
    ∃ z : Fin n → K, z ≠ 0 ∧ ∀ k, ∑ j, A k j * z j = w * z k := by
  rw [Matrix.eval_charpoly] at h
  obtain ⟨z, hz, hz0⟩ := Matrix.exists_mulVec_eq_zero_iff.2 h
  refine ⟨z, hz, fun k => ?_⟩
  have := congrFun hz0 k
  rw [Matrix.sub_mulVec, Pi.sub_apply] at this
  simp only [Matrix.scalar_apply, Matrix.mulVec_diagonal, Pi.zero_apply] at this
  simp only [Matrix.mulVec, dotProduct] at this
  exact (sub_eq_zero.1 this).symm

theorem unit_complex {n : Nat} {z : Fin n → ℂ} (hz : z ≠ 0) : 0 < ∑ k, Complex.normSq (z k) := by
  obtain ⟨i, hi⟩ := Function.ne_iff.1 hz
  exact Finset.sum_pos' (fun k _ => Complex.normSq_nonneg _) ⟨i, Finset.mem_univ i, Complex.normSq_pos.2 hi⟩

/-- an eigenvector can be divided by its length -/
theorem eig_unit {n : Nat} {A : Matrix (Fin n) (Fin n) ℝ} {w : ℂ} {z : Fin n → ℂ} (hz : z ≠ 0) (h : ∀ k, ∑ j, (A k j : ℂ) * z j = w * z k) :
    ∃ y : Fin n → ℂ, (∀ k, ∑ j, (A k j : ℂ) * y j = w * y k) ∧ ∑ k, Complex.normSq (y k) = 1 ∧ ((∀ k, (z k).im = 0) → ∀ k, (y k).im = 0) := by
  have hp := unit_complex hz
  obtain ⟨s, hs⟩ : ∃ s, s = ∑ k, Complex.normSq (z k) := ⟨_, rfl⟩
  rw [← hs] at hp
  refine ⟨fun k => ((√s)⁻¹ : ℝ) * z k, fun k => ?_, ?_, fun h0 k => ?_⟩
  · have : ∀ j, (A k j : ℂ) * (((√s)⁻¹ : ℝ) * z j) = ((√s)⁻¹ : ℝ) * ((A k j : ℂ) * z j) := fun j => by ring
    rw [Finset.sum_congr rfl fun j _ => this j, ← Finset.mul_sum, h k]
    ring
  · simp only [Complex.normSq_mul, Complex.normSq_ofReal]
    rw [← Finset.mul_sum, ← hs, ← mul_inv, Real.mul_self_sqrt hp.le, inv_mul_cancel₀ hp.ne']
  · simp [Complex.mul_im, h0 k]

theorem eig_vector {n : Nat} (A : Matrix (Fin n) (Fin n) ℝ) {w : ℂ} (h : (A.map ((↑) : ℝ → ℂ)).charpoly.eval w = 0) :
    ∃ y : Fin n → ℂ, (∀ k, ∑ j, (A k j : ℂ) * y j = w * y k) ∧ ∑ k, Complex.normSq (y k) = 1 ∧ (w.im = 0 → ∀ k, (y k).im = 0) := by
  by_cases hw : w.im = 0
  · obtain ⟨r, rfl⟩ : ∃ r : ℝ, w = r := ⟨w.re, Complex.ext rfl (by simpa using hw)⟩
    have hr : A.charpoly.eval r = 0 := by
      have h2 : A.map ((↑) : ℝ → ℂ) = A.map Complex.ofRealHom := rfl
      rw [h2, Matrix.charpoly_map, Polynomial.eval_map] at h
      have h3 := Polynomial.eval₂_at_apply (p := A.charpoly) Complex.ofRealHom r
      have h4 : Complex.ofRealHom (A.charpoly.eval r) = 0 := by rw [← h3]; exact h
      exact Complex.ofReal_eq_zero.1 h4
    obtain ⟨z, hz, hz2⟩ := det_vector hr
    obtain ⟨y, h1, h2, h3⟩ := eig_unit (A := A) (w := r) (z := fun k => (z k : ℂ)) (fun h0 => hz (funext fun k => by
      have := congrFun h0 k
      simpa using this)) fun k => by exact_mod_cast congrArg (fun x : ℝ => (x : ℂ)) (hz2 k)
    exact ⟨y, h1, h2, fun _ => h3 fun k => Complex.ofReal_im _⟩
  · obtain ⟨z, hz, hz2⟩ := det_vector h
    obtain ⟨y, h1, h2, -⟩ := eig_unit (A := A) hz hz2
    exact ⟨y, h1, h2, fun h0 => absurd h0 hw⟩

theorem eig_exists {n : Nat} (A : Matrix (Fin n) (Fin n) ℝ) : ∃ e, EigOf A e := by
  obtain ⟨p, hp⟩ : ∃ p, p = (A.map ((↑) : ℝ → ℂ)).charpoly := ⟨_, rfl⟩
  have hm : p.Monic := hp ▸ Matrix.charpoly_monic _
  have hs := IsAlgClosed.splits p
  have hprod := hs.eq_prod_roots_of_monic hm
  have hcard : p.roots.toList.length = n := by
    rw [Multiset.length_toList, ← hs.natDegree_eq_card_roots, hp, Matrix.charpoly_natDegree_eq_dim, Fintype.card_fin]
  have hroot : ∀ i : Fin n, p.eval (p.roots.toList.get (i.cast hcard.symm)) = 0 := fun i => by
    have := List.get_mem p.roots.toList (i.cast hcard.symm)
    rw [Multiset.mem_toList] at this
    exact (Polynomial.mem_roots'.1 this).2
  have hv := fun i => eig_vector A (by rw [← hp]; exact hroot i)
  choose y hy1 hy2 hy3 using hv
  refine ⟨fun i => (p.roots.toList.get (i.cast hcard.symm), y i), ⟨hy1, hy2, hy3, ?_⟩⟩
  rw [← hp]
  conv_lhs => rw [hprod, ← Multiset.coe_toList p.roots, Multiset.map_coe, Multiset.prod_coe]
  rw [← List.prod_ofFn]
  congr 1
  refine List.ext_get (by simp [hcard]) fun i h1 h2 => ?_
  simp

/-- `numpy.linalg.eig` can keep its promise -/
theorem eigOk_exists : ∃ L, EigOk L := by
  choose f hf using fun A : Matrix (Fin 3) (Fin 3) ℝ => eig_exists A
  choose g hg using fun A : Matrix (Fin 4) (Fin 4) ℝ => eig_exists A
  exact ⟨⟨f, g⟩, hf, hg⟩

/-- for one matrix of each size the result of `eig` can be chosen -/
theorem eigOk_choose {A : Matrix (Fin 3) (Fin 3) ℝ} {e : Eigen 3} {B : Matrix (Fin 4) (Fin 4) ℝ} {f : Eigen 4} (h : EigOf A e) (h' : EigOf B f) :
    ∃ L, EigOk L ∧ L.eig3 A = e ∧ L.eig4 B = f := by
  obtain ⟨L, hL⟩ := eigOk_exists
  refine ⟨⟨Function.update L.eig3 A e, Function.update L.eig4 B f⟩, ⟨fun C => ?_, fun C => ?_⟩, Function.update_self _ _ _, Function.update_self _ _ _⟩
  · by_cases hC : C = A
    · subst hC; simp only [Function.update_self]; exact h
    · simp only [Function.update_of_ne hC]; exact hL.three C
  · by_cases hC : C = B
    · subst hC; simp only [Function.update_self]; exact h'
    · simp only [Function.update_of_ne hC]; exact hL.four C

/-- a basis of eigenvectors, in any order, is a possible result of `eig` up to the lengths of the vectors -/
theorem eig_basis {n : Nat} {A : Matrix (Fin n) (Fin n) ℝ} {w : Fin n → ℂ} {z : Fin n → Fin n → ℂ}
    (h : ∀ i k, ∑ j, (A k j : ℂ) * z i j = w i * z i k) (hdet : (Matrix.of z).det ≠ 0) (hr : ∀ i, (w i).im = 0 → ∀ k, (z i k).im = 0) :
    ∃ e, EigOf A e ∧ ∀ i, (e i).1 = w i ∧ ∃ c : ℝ, 0 < c ∧ ∀ k, (e i).2 k = c * z i k := by
  have hz : ∀ i, z i ≠ 0 := fun i h0 => hdet (Matrix.det_eq_zero_of_row_eq_zero i fun k => by simp [h0])
  have hp := fun i => unit_complex (hz i)
  refine ⟨fun i => (w i, fun k => ((√(∑ k, Complex.normSq (z i k)))⁻¹ : ℝ) * z i k), ⟨fun i k => ?_, fun i => ?_, fun i hi k => ?_, ?_⟩,
    fun i => ⟨rfl, _, inv_pos.2 (Real.sqrt_pos.2 (hp i)), fun k => rfl⟩⟩
  · obtain ⟨s, hs⟩ : ∃ s, s = ∑ k, Complex.normSq (z i k) := ⟨_, rfl⟩
    simp only [← hs]
    have : ∀ j, (A k j : ℂ) * (((√s)⁻¹ : ℝ) * z i j) = ((√s)⁻¹ : ℝ) * ((A k j : ℂ) * z i j) := fun j => by ring
    rw [Finset.sum_congr rfl fun j _ => this j, ← Finset.mul_sum, h i k]
    ring
  · obtain ⟨s, hs⟩ : ∃ s, s = ∑ k, Complex.normSq (z i k) := ⟨_, rfl⟩
    have hp' := hp i
    simp only [← hs] at hp' ⊢
    simp only [Complex.normSq_mul, Complex.normSq_ofReal]
    rw [← Finset.mul_sum, ← hs, ← mul_inv, Real.mul_self_sqrt hp'.le, inv_mul_cancel₀ hp'.ne']
  · simp [Complex.mul_im, hr i hi k]
  · have hu : IsUnit (Matrix.of z).transpose := by
      rw [Matrix.isUnit_iff_isUnit_det, Matrix.det_transpose]
      exact isUnit_iff_ne_zero.2 hdet
    obtain ⟨U, hU⟩ := hu
    have hAU : A.map ((↑) : ℝ → ℂ) * U.val = U.val * Matrix.diagonal w := by
      rw [hU]
      ext k i
      rw [Matrix.mul_apply, Matrix.mul_diagonal]
      simp only [Matrix.map_apply, Matrix.transpose_apply, Matrix.of_apply]
      rw [h i k, mul_comm]
    have hA : A.map ((↑) : ℝ → ℂ) = U.val * Matrix.diagonal w * U⁻¹.val := by
      rw [← hAU, Matrix.mul_assoc, Units.mul_inv, Matrix.mul_one]
    rw [hA, Matrix.coe_units_inv, Matrix.charpoly_units_conj, Matrix.charpoly_diagonal]

/-! ### results that are not finite, exceptions, and wrong results -/

theorem unit_ex : unitVector ![(1 : ℝ), 0, 0] = ![1, 0, 0] := unitVector_of_dot (by simp [dot3])

theorem eigPick_one {n : Nat} {e : Eigen (n + 1)} {P : ℝ → Prop} (h : P (e (Fin.last n)).1.re) :
    (eigPick e P).getLast? = some fun k => ((e (Fin.last n)).2 k).re := by
  unfold eigPick
  rw [List.finRange_succ_last, List.filter_append, List.map_append]
  simp [h]

/-- C106: what `eig` promises does not exclude a result without numbers for a reflection: here the last fixed direction that it
finds is a point at infinity. -/
theorem c106_not_finite : ∃ L, EigOk L ∧ reflectionFrom L (reflectionMatrix 0 ![1, 0, 0]) = .ok none := by
  have hM : reflectionMatrix 0 ![1, 0, 0] = !![-1, 0, 0, 0; 0, 1, 0, 0; 0, 0, 1, 0; 0, 0, 0, 1] := by
    rw [reflection_along, along_apply, unit_ex]
    ext i j
    fin_cases i <;> fin_cases j <;> simp [dot3] <;> norm_num
  obtain ⟨e, he1, he2⟩ := eig_basis (A := !![-1, 0, 0, 0; 0, 1, 0, 0; 0, 0, 1, 0; 0, 0, 0, 1]) (w := ![-1, 1, 1, 1])
    (z := ![![1, 0, 0, 0], ![0, 1, 0, 0], ![0, 0, 0, 1], ![0, 0, 1, 0]])
    (fun i k => by fin_cases i <;> fin_cases k <;> simp [Fin.sum_univ_four])
    (by
      rw [Matrix.det_succ_row_zero]
      simp [Fin.sum_univ_four, Matrix.det_fin_three, Fin.succAbove])
    (fun i _ k => by fin_cases i <;> fin_cases k <;> simp)
  obtain ⟨f, hf⟩ := eig_exists (upper (reflectionMatrix 0 ![1, 0, 0]))
  obtain ⟨L, hL, -, h4⟩ := eigOk_choose hf (hM ▸ he1)
  refine ⟨L, hL, ?_⟩
  obtain ⟨r, hr, -⟩ := c106_reflection L hL 0 ![1, 0, 0] (fun h => by simpa using congrFun h 0)
  rw [hr]
  have hl : (eigPick (L.eig4 (reflectionMatrix 0 ![1, 0, 0])) fun w => |w - 1| < eigTol).getLast? = some fun k => ((e 3).2 k).re := by
    rw [h4]
    exact eigPick_one (n := 3) (by
      rw [show (Fin.last 3) = 3 from rfl, (he2 3).1]
      simpa using eigTol_pos)
  unfold reflectionFrom at hr
  rw [hl] at hr
  obtain ⟨c, hc, hk⟩ := (he2 3).2
  have hd : dehom (fun k => ((e 3).2 k).re) = none := by
    unfold dehom
    rw [if_pos]
    show ((e 3).2 3).re = 0
    rw [hk 3]
    simp
  simp only [hd, Option.map_none] at hr
  split at hr
  · simp at hr
  · exact hr.symm

/-- C106: a rotation by a small angle about the x axis, with the eigenvalues in the order of the blocks of the matrix: the function
answers with an angle of zero. -/
theorem c106_small_angle : ∃ θ : ℝ, rotationMatrix θ ![1, 0, 0] none ≠ 1 ∧ ∃ L, EigOk L ∧
    ∃ d p, rotationFrom L (rotationMatrix θ ![1, 0, 0] none) = .ok (some (0, d, p)) ∧ rotationMatrix 0 d (some p) = 1 := by
  obtain ⟨t, ht⟩ : ∃ t : ℝ, t = 1 / 100000 := ⟨_, rfl⟩
  obtain ⟨θ, hθ⟩ : ∃ θ, θ = 2 * Real.arctan t := ⟨_, rfl⟩
  obtain ⟨c, hc⟩ : ∃ c, c = Real.cos θ := ⟨_, rfl⟩
  obtain ⟨s, hs⟩ : ∃ s, s = Real.sin θ := ⟨_, rfl⟩
  have hcs : c * c + s * s = 1 := by rw [hc, hs]; nlinarith [Real.sin_sq_add_cos_sq θ]
  have hcv : c = (1 - t ^ 2) / (1 + t ^ 2) := by
    rw [hc, hθ, Real.cos_two_mul, Real.cos_sq_arctan]
    field_simp
    ring
  have hc1 : 1 - c < eigTol := by rw [hcv, ht]; unfold eigTol; norm_num
  have hc2 : c < 1 := by rw [hcv, ht]; norm_num
  have hc0 : 0 < c := by rw [hcv, ht]; norm_num
  have hs0 : s ≠ 0 := fun h => by rw [h] at hcs; nlinarith
  have hM : rotationMatrix θ ![1, 0, 0] none = !![1, 0, 0, 0; 0, c, -s, 0; 0, s, c, 0; 0, 0, 0, 1] := by
    rw [rotation_affine, affine_mk, core_apply, ← hc, ← hs, unit_ex]
    ext i j
    fin_cases i <;> fin_cases j <;> simp
  have hT : (upper (rotationMatrix θ ![1, 0, 0] none)).transpose = !![1, 0, 0; 0, c, s; 0, -s, c] := by
    rw [hM]
    ext i j
    fin_cases i <;> fin_cases j <;> rfl
  obtain ⟨e, he1, he2⟩ := eig_basis (A := !![1, 0, 0; 0, c, s; 0, -s, c]) (w := ![1, ⟨c, s⟩, ⟨c, -s⟩])
    (z := ![![1, 0, 0], ![0, 1, Complex.I], ![0, 1, -Complex.I]])
    (fun i k => by fin_cases i <;> fin_cases k <;> simp [Fin.sum_univ_three] <;> apply Complex.ext <;> simp)
    (by
      rw [Matrix.det_fin_three]
      simp
      intro h
      have := congrArg Complex.im h
      norm_num at this)
    (fun i hi k => by
      fin_cases i
      · fin_cases k <;> simp
      · simp [hs0] at hi
      · simp [hs0] at hi)
  obtain ⟨f, hf1, hf2⟩ := eig_basis (A := !![1, 0, 0, 0; 0, c, -s, 0; 0, s, c, 0; 0, 0, 0, 1]) (w := ![1, ⟨c, s⟩, ⟨c, -s⟩, 1])
    (z := ![![1, 0, 0, 0], ![0, 1, -Complex.I, 0], ![0, 1, Complex.I, 0], ![0, 0, 0, 1]])
    (fun i k => by fin_cases i <;> fin_cases k <;> simp [Fin.sum_univ_four] <;> apply Complex.ext <;> simp)
    (by
      rw [Matrix.det_succ_row_zero]
      simp [Fin.sum_univ_four, Matrix.det_fin_three, Fin.succAbove])
    (fun i hi k => by
      fin_cases i
      · fin_cases k <;> simp
      · simp [hs0] at hi
      · simp [hs0] at hi
      · fin_cases k <;> simp)
  obtain ⟨L, hL, h3, h4⟩ := eigOk_choose (hT ▸ he1) (hM ▸ hf1)
  refine ⟨θ, fun h => ?_, L, hL, fun k => ((e 2).2 k).re, fun _ => 0, ?_, ?_⟩
  · rw [hM] at h
    have := congrFun (congrFun h 2) 1
    simp at this
    exact hs0 this
  · obtain ⟨k, hk, hk2⟩ := (he2 2).2
    obtain ⟨m, hm, hm2⟩ := (hf2 3).2
    unfold rotationFrom
    rw [h3, h4, eigPick_one (n := 2) (e := e), eigPick_one (n := 3) (e := f)]
    · simp only
      have hd : dehom (fun k => ((f (Fin.last 3)).2 k).re) = some fun _ => 0 := by
        unfold dehom
        rw [show (Fin.last 3) = 3 from rfl, if_neg]
        · congr 1
          funext a
          simp only [hm2]
          fin_cases a <;> simp
        · simp only [hm2]
          simp [hm.ne']
      rw [hd]
      have ha : angleFrom (rotationMatrix θ ![1, 0, 0] none) (fun k => ((e (Fin.last 2)).2 k).re) = 0 := by
        have hn := he1.norm 2
        simp only [hk2, Complex.normSq_mul, Complex.normSq_ofReal] at hn
        simp [Fin.sum_univ_three] at hn
        have hk5 : eigTol < k := by nlinarith [eigTol_lt]
        have htr : ((upper (rotationMatrix θ ![1, 0, 0] none)).trace - 1) / 2 = c := by
          rw [hM]
          simp [Matrix.trace_fin_three, upper]
          ring
        unfold angleFrom
        simp only [htr]
        rw [show (Fin.last 2) = 2 from rfl]
        simp only [hk2, hM]
        rw [if_neg (by simpa using eigTol_pos.le), if_pos (by simpa [abs_of_pos hk] using hk5)]
        have : ((!![1, 0, 0, 0; 0, c, -s, 0; 0, s, c, 0; 0, 0, 0, 1] : Matrix (Fin 4) (Fin 4) ℝ) 0 2) = 0 := rfl
        rw [this]
        simp [atan2]
        exact Complex.arg_ofReal_of_nonneg hc0.le
      rw [ha]
      rfl
    · rw [show (Fin.last 3) = 3 from rfl, (hf2 3).1]
      simpa using eigTol_pos
    · rw [show (Fin.last 2) = 2 from rfl, (he2 2).1]
      simp
      rw [abs_sub_comm, abs_of_nonneg (by linarith)]
      exact hc1
  · rw [rotation_affine, affine_mk, core_apply]
    ext i j
    fin_cases i <;> fin_cases j <;> simp

/-- C106: a perspective projection whose centre is at distance one from the plane: the function takes the matrix for one of a parallel
projection and raises ValueError, whatever `eig` returns. -/
theorem c106_distance_one (L : EigLib) (hL : EigOk L) :
    projectionFrom L (projectionMatrix ![1, 0, 0] ![1, 0, 0] none (some ![2, 0, 0]) false) false = .error .valueError := by
  obtain ⟨M, hM⟩ : ∃ M, M = projectionMatrix ![1, 0, 0] ![1, 0, 0] none (some ![2, 0, 0]) false := ⟨_, rfl⟩
  have hMe : M = !![-1, 0, 0, 2; 0, 1, 0, 0; 0, 0, 1, 0; -1, 0, 0, 2] := by
    rw [hM]
    unfold projectionMatrix
    simp only [vdot_three]
    rw [if_neg (by simp), block4_apply]
    ext i j
    fin_cases i <;> fin_cases j <;> simp [unit_ex, dot3] <;> norm_num
  rw [← hM]
  obtain ⟨v, hv⟩ := fixed_some hL (M := M) (x := ![0, 1, 0, 0]) (fun h => by simpa using congrFun h 1) fun k => by
    rw [hMe]
    fin_cases k <;> simp [Fin.sum_univ_four]
  have hno : (eigPick (L.eig3 (upper M)) fun w => |w| < eigTol).head? = none := by
    rcases hh : (eigPick (L.eig3 (upper M)) fun w => |w| < eigTol).head? with _ | v
    · rfl
    · obtain ⟨i, hi, -⟩ := eigPick_head hh
      have := eigOf_quad (hL.three (upper M)) (a := 0) (b := 1) (by
        rw [hMe]
        ext i j
        fin_cases i <;> fin_cases j <;> simp [upper, Matrix.mul_apply, Fin.sum_univ_three]) i
      have h2 : ((L.eig3 (upper M) i).1 - 1) * ((L.eig3 (upper M) i).1 + 1) = 0 := by
        push_cast at this
        linear_combination this
      exfalso
      rcases mul_eq_zero.1 h2 with h3 | h3
      · rw [sub_eq_zero.1 h3] at hi
        simp at hi
        linarith [eigTol_lt]
      · rw [eq_neg_of_add_eq_zero_left h3] at hi
        simp at hi
        linarith [eigTol_lt]
  unfold projectionFrom
  simp only [Bool.false_eq_true, if_false]
  rw [hv, hno]

/-- C106: a perspective projection onto a plane through the origin: the function divides by zero, whatever `eig` returns. -/
theorem c106_origin (L : EigLib) (hL : EigOk L) :
    projectionFrom L (projectionMatrix 0 ![1, 0, 0] none (some ![2, 0, 0]) false) false = .ok none := by
  obtain ⟨M, hM⟩ : ∃ M, M = projectionMatrix 0 ![1, 0, 0] none (some ![2, 0, 0]) false := ⟨_, rfl⟩
  have hMe : M = !![0, 0, 0, 0; 0, 2, 0, 0; 0, 0, 2, 0; -1, 0, 0, 2] := by
    rw [hM]
    unfold projectionMatrix
    simp only [vdot_three]
    rw [if_neg (by simp), block4_apply]
    ext i j
    fin_cases i <;> fin_cases j <;> simp [unit_ex, dot3]
  rw [← hM]
  have hw : ∀ i, (L.eig4 M i).1 = ((0 : ℝ) : ℂ) ∨ (L.eig4 M i).1 = ((2 : ℝ) : ℂ) := by
    intro i
    have := eigOf_quad (hL.four M) (a := 2) (b := 0) (by
      rw [hMe]
      ext i j
      fin_cases i <;> fin_cases j <;> simp [Matrix.mul_apply, Fin.sum_univ_four]) i
    have h2 : ((L.eig4 M i).1 - ((0 : ℝ) : ℂ)) * ((L.eig4 M i).1 - ((2 : ℝ) : ℂ)) = 0 := by
      push_cast at this ⊢
      linear_combination this
    rcases mul_eq_zero.1 h2 with h3 | h3
    · exact Or.inl (sub_eq_zero.1 h3)
    · exact Or.inr (sub_eq_zero.1 h3)
  have hno : (eigPick (L.eig4 M) fun w => |w - 1| < eigTol).getLast? = none := by
    rcases hh : (eigPick (L.eig4 M) fun w => |w - 1| < eigTol).getLast? with _ | v
    · rfl
    · obtain ⟨i, hi, -⟩ := eigPick_last hh
      exfalso
      rcases hw i with h | h <;> rw [h, Complex.ofReal_re] at hi <;> norm_num at hi <;> linarith [eigTol_lt]
  obtain ⟨i, hi⟩ := eigOf_mem (hL.four M) (w := 2) (x := ![0, 0, 0, 1]) (fun h => by simpa using congrFun h 3) fun k => by
    rw [hMe]
    fin_cases k <;> simp [Fin.sum_univ_four]
  obtain ⟨v, hv⟩ := eigPick_last_some (e := L.eig4 M) (P := fun w => eigTol < |w|) (i := i) (by
    rw [hi, Complex.ofReal_re, abs_two]
    linarith [eigTol_lt])
  unfold projectionFrom
  simp only [Bool.false_eq_true, if_false]
  rw [hno, hv]
  simp only
  obtain ⟨j, hj, hvj⟩ := eigPick_last hv
  have hw2 : (L.eig4 M j).1 = ((2 : ℝ) : ℂ) := by
    rcases hw j with h | h
    · rw [h, Complex.ofReal_re, abs_zero] at hj
      linarith [eigTol_pos]
    · exact h
  obtain ⟨hvec, -⟩ := eigOf_real (hL.four M) hw2
  have hx : ∀ k, ((L.eig4 M j).2 k).re = v k := fun k => by rw [hvj]
  simp only [hx] at hvec
  have h0 : v 0 = 0 := by
    have := hvec 0
    rw [hMe] at this
    simp [Fin.sum_univ_four] at this
    exact this
  congr 1
  cases hd : dehom v with
  | none => rfl
  | some p =>
    obtain ⟨h3, hp⟩ := dehom_some hd
    have hp0 : p 0 = 0 := by
      have := hp 0
      rw [show (0 : Fin 3).castSucc = 0 from rfl, h0] at this
      exact (mul_eq_zero.1 this.symm).resolve_left h3
    simp only [Option.bind_some]
    rw [if_pos]
    rw [vdot_three, hMe]
    simp [dot3, hp0]

/-- C106: a pseudo depth projection: if `eig` returns the eigenvalue of the centre last, the result belongs to another matrix. -/
theorem c106_pseudo : ∃ L, EigOk L ∧ ∃ q : ProjArgs,
    projectionFrom L (projectionMatrix ![1, 0, 0] ![1, 0, 0] none (some ![3, 0, 0]) true) true = .ok (some q) ∧
    ∀ k : ℝ, projectionMatrix q.point q.normal q.direction q.perspective q.pseudo ≠
      k • projectionMatrix ![1, 0, 0] ![1, 0, 0] none (some ![3, 0, 0]) true := by
  obtain ⟨M, hM⟩ : ∃ M, M = projectionMatrix ![1, 0, 0] ![1, 0, 0] none (some ![3, 0, 0]) true := ⟨_, rfl⟩
  have hMe : M = !![-2, 0, 0, 4; 0, 2, 0, 0; 0, 0, 2, 0; -1, 0, 0, 3] := by
    rw [hM]
    unfold projectionMatrix
    simp only [vdot_three]
    rw [if_pos (by simp), block4_apply]
    ext i j
    fin_cases i <;> fin_cases j <;> simp [unit_ex, dot3] <;> norm_num
  rw [← hM]
  obtain ⟨e, he1, he2⟩ := eig_basis (A := !![-2, 0, 0, 4; 0, 2, 0, 0; 0, 0, 2, 0; -1, 0, 0, 3]) (w := ![2, 2, 2, -1])
    (z := ![![1, 0, 0, 1], ![0, 1, 0, 0], ![0, 0, 1, 0], ![4, 0, 0, 1]])
    (fun i k => by fin_cases i <;> fin_cases k <;> simp [Fin.sum_univ_four] <;> norm_num)
    (by
      rw [Matrix.det_succ_row_zero]
      simp [Fin.sum_univ_four, Matrix.det_fin_three, Fin.succAbove]
      norm_num)
    (fun i _ k => by fin_cases i <;> fin_cases k <;> simp)
  obtain ⟨f, hf⟩ := eig_exists (upper M)
  obtain ⟨L, hL, -, h4⟩ := eigOk_choose hf (hMe ▸ he1)
  obtain ⟨c, hc, hk⟩ := (he2 3).2
  refine ⟨L, hL, ⟨![4, 0, 0], ![1, 0, 0], none, some ![0, 0, 0], true⟩, ?_, ?_⟩
  · unfold projectionFrom
    simp only [if_true]
    rw [h4, eigPick_one (n := 3) (e := e)]
    · simp only
      have hd : dehom (fun k => ((e (Fin.last 3)).2 k).re) = some ![4, 0, 0] := by
        unfold dehom
        rw [show (Fin.last 3) = 3 from rfl, if_neg]
        · congr 1
          funext a
          simp only [hk]
          fin_cases a <;> simp
          field_simp
        · simp only [hk]
          simp [hc.ne']
      rw [hd, Option.bind_some]
      have hn : (fun a : Fin 3 => -M 3 a.castSucc) = ![1, 0, 0] := by
        rw [hMe]
        funext a
        fin_cases a <;> simp
      simp only [hn]
      rw [if_neg (by rw [vdot_three]; simp [dot3])]
      congr 3
      rw [hMe, vdot_three]
      congr 1
      funext a
      fin_cases a <;> simp [dot3]
    · rw [show (Fin.last 3) = 3 from rfl, (he2 3).1]
      simp
      linarith [eigTol_lt]
  · intro k h
    have h30 := congrFun (congrFun h 3) 0
    have h33 := congrFun (congrFun h 3) 3
    rw [hMe] at h30 h33
    unfold projectionMatrix at h30 h33
    simp only [vdot_three, if_true] at h30 h33
    rw [block4_apply] at h30 h33
    simp [unit_ex, dot3] at h30 h33
    rw [h33] at h30
    norm_num at h30

/-- C106: a shear by an angle of zero is the identity: the function divides by zero, whatever `eig` returns. -/
theorem c106_no_shear (L : EigLib) (hL : EigOk L) : shearMatrix 0 ![1, 0, 0] 0 ![0, 0, 1] = .ok 1 ∧ shearFrom L 1 = .ok none := by
  constructor
  · rw [shear_along (fun h => by simpa using congrFun h 2) (fun h => by simpa using congrFun h 0) (by simp [dot3]), along_apply]
    congr 1
    ext i j
    fin_cases i <;> fin_cases j <;> simp
  · have hup : upper (1 : Matrix (Fin 4) (Fin 4) ℝ) = 1 := by
      ext i j
      fin_cases i <;> fin_cases j <;> rfl
    obtain ⟨v, hv⟩ := fixed_some hL (M := 1) (x := ![1, 0, 0, 0]) (fun h => by simpa using congrFun h 0) fun k => by
      simp [Matrix.one_apply]
    have hw : ∀ i, (L.eig3 1 i).1 = 1 := by
      intro i
      have := eigOf_quad (hL.three 1) (a := 2) (b := -1) (by rw [one_mul]; ext i j; simp; ring) i
      have h2 : ((L.eig3 1 i).1 - 1) * ((L.eig3 1 i).1 - 1) = 0 := by
        push_cast at this
        linear_combination this
      exact sub_eq_zero.1 (mul_self_eq_zero.1 h2)
    have hlen : (eigPick (L.eig3 1) fun w => |w - 1| < 1 / 10 ^ 4).length = 3 := by
      rw [eigPick_all fun i => by rw [hw i]; norm_num]
      rfl
    unfold shearFrom
    simp only [hup]
    rw [if_neg (by rw [hlen]; norm_num), if_neg (by rw [hlen]; norm_num), hv]
    simp only [sub_self, Matrix.zero_mulVec]
    rw [if_pos (Or.inr (by simp [vectorNorm]))]

/-! ### the hypotheses can be met -/

/-- a choice of `eig` for which the result for a reflection is finite -/
example : ∃ L, EigOk L ∧ Finite4 L (reflectionMatrix 0 ![1, 0, 0]) 1 := by
  have hM : reflectionMatrix 0 ![1, 0, 0] = !![-1, 0, 0, 0; 0, 1, 0, 0; 0, 0, 1, 0; 0, 0, 0, 1] := by
    rw [reflection_along, along_apply, unit_ex]
    ext i j
    fin_cases i <;> fin_cases j <;> simp [dot3] <;> norm_num
  obtain ⟨e, he1, he2⟩ := eig_basis (A := !![-1, 0, 0, 0; 0, 1, 0, 0; 0, 0, 1, 0; 0, 0, 0, 1]) (w := ![-1, 1, 1, 1])
    (z := ![![1, 0, 0, 0], ![0, 1, 0, 1], ![0, 0, 1, 1], ![0, 0, 0, 1]])
    (fun i k => by fin_cases i <;> fin_cases k <;> simp [Fin.sum_univ_four])
    (by
      rw [Matrix.det_succ_row_zero]
      simp [Fin.sum_univ_four, Matrix.det_fin_three, Fin.succAbove])
    (fun i _ k => by fin_cases i <;> fin_cases k <;> simp)
  obtain ⟨f, hf⟩ := eig_exists (1 : Matrix (Fin 3) (Fin 3) ℝ)
  obtain ⟨L, hL, -, h4⟩ := eigOk_choose hf (hM ▸ he1)
  refine ⟨L, hL, fun i hi => ?_⟩
  rw [h4] at hi ⊢
  obtain ⟨h1, c, hc, hk⟩ := he2 i
  rw [h1] at hi
  rw [hk 3]
  fin_cases i
  · norm_num at hi
  all_goals simp [hc.ne']

/-- an angle that is neither zero nor too small -/
example : eigTol ≤ 1 - Real.cos (Real.pi / 2) := by rw [Real.cos_pi_div_two]; linarith [eigTol_lt]

/-- a choice of `eig` for which the result for a shear is finite -/
example : ∃ L M, EigOk L ∧ shearMatrix (Real.pi / 4) ![1, 0, 0] 0 ![0, 0, 1] = .ok M ∧ Finite4 L M 1 ∧ Real.tan (Real.pi / 4) ≠ 0 ∧
    ∃ i j, vcross (fun k => ((L.eig3 (upper M) i).2 k).re) (fun k => ((L.eig3 (upper M) j).2 k).re) ≠ 0 := by
  obtain ⟨t, ht⟩ : ∃ t, t = Real.tan (Real.pi / 4) := ⟨_, rfl⟩
  have hM : shearMatrix (Real.pi / 4) ![1, 0, 0] 0 ![0, 0, 1] = .ok !![1, 0, t, 0; 0, 1, 0, 0; 0, 0, 1, 0; 0, 0, 0, 1] := by
    have hz : unitVector ![(0 : ℝ), 0, 1] = ![0, 0, 1] := unitVector_of_dot (by simp [dot3])
    rw [shear_along (fun h => by simpa using congrFun h 2) (fun h => by simpa using congrFun h 0) (by simp [dot3]), along_apply, unit_ex, hz, ← ht]
    congr 1
    ext i j
    fin_cases i <;> fin_cases j <;> simp [dot3]
  have hu : upper !![1, 0, t, 0; 0, 1, 0, 0; 0, 0, 1, 0; 0, 0, 0, 1] = !![1, 0, t; 0, 1, 0; 0, 0, 1] := by
    ext i j
    fin_cases i <;> fin_cases j <;> rfl
  have h3 : EigOf !![1, 0, t; 0, 1, 0; 0, 0, 1] fun i => (1, ![![1, 0, 0], ![0, 1, 0], ![1, 0, 0]] i) := by
    refine ⟨fun i k => ?_, fun i => ?_, fun i _ k => ?_, ?_⟩
    · fin_cases i <;> fin_cases k <;> simp [Fin.sum_univ_three]
    · fin_cases i <;> simp [Fin.sum_univ_three]
    · fin_cases i <;> fin_cases k <;> simp
    · rw [Matrix.charpoly_of_upperTriangular]
      · rw [Fin.prod_univ_three, Fin.prod_univ_three]
        simp
      · intro i j hij
        fin_cases i <;> fin_cases j <;> simp at hij ⊢
  have h4 : EigOf !![1, 0, t, 0; 0, 1, 0, 0; 0, 0, 1, 0; 0, 0, 0, 1] fun _ => (1, ![0, 0, 0, 1]) := by
    refine ⟨fun i k => ?_, fun i => ?_, fun i _ k => ?_, ?_⟩
    · fin_cases k <;> simp [Fin.sum_univ_four]
    · simp [Fin.sum_univ_four]
    · fin_cases k <;> simp
    · rw [Matrix.charpoly_of_upperTriangular]
      · rw [Fin.prod_univ_four, Fin.prod_univ_four]
        simp
      · intro i j hij
        fin_cases i <;> fin_cases j <;> simp at hij ⊢
  obtain ⟨L, hL, g3, g4⟩ := eigOk_choose h3 h4
  refine ⟨L, _, hL, hM, fun i _ => ?_, ?_, 0, 1, fun h => ?_⟩
  · rw [g4]; simp
  · rw [Real.tan_pi_div_four]; exact one_ne_zero
  · rw [hu, g3] at h
    have := congrFun h 2
    simp [vcross] at this

end Electrode
