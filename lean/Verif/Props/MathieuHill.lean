import Verif.Lemmas.HillLimit

/-! C114: with growing order the exponent from the determinant becomes the characteristic exponent. -/

namespace Electrode

open Filter Topology Spec Real

/-- the parameter is not the square of an even number -/
def Spec.NotEvenSquare (a : ℝ) : Prop := ∀ n : ℕ, a ≠ (2 * n : ℝ) ^ 2

theorem notEven_order {a : ℝ} (h : NotEvenSquare a) (ntr : ℕ) : ∀ n : ℕ, n ≤ ntr → a ≠ 4 * (n : ℝ) ^ 2 := fun n _ e =>
  h n (by rw [e]; ring)

/-- C114: the number whose inverse sine `nu_exp_det` takes converges, and the limit comes from the solution that `nu_exp_ivp` integrates -/
theorem c114_limit {a q : ℝ} (ha : 0 < a) (h4 : NotEvenSquare a) {y y' : ℝ → ℝ} (hy : SolvesMathieu a q y y') (h0 : y 0 = 1) (h0' : y' 0 = 0) :
    Tendsto (fun N : ℕ => (Spec.hill a q N).det * sin (π / 2 * √a) ^ 2) atTop (𝓝 ((1 - y π) / 2)) := by
  obtain ⟨k, hk⟩ : ∃ k, k = √a := ⟨_, rfl⟩
  have hka : a = k ^ 2 := by rw [hk, sq_sqrt ha.le]
  have hk0 : 0 < k := by rw [hk]; exact sqrt_pos.2 ha
  rw [← hk]
  rw [hka] at hy
  have hev : ∀ n : ℤ, k ≠ 2 * n := by
    intro n hn
    refine h4 n.natAbs ?_
    have : ((n.natAbs : ℕ) : ℝ) = |(n : ℝ)| := by rw [Nat.cast_natAbs, Int.cast_abs]
    rw [this, mul_pow, sq_abs, ← mul_pow, ← hn, ← hka]
  have hv := hill_value_all hev hy h0 h0'
  have hs : sin (π / 2 * k) ^ 2 = (1 - cos (π * k)) / 2 := by
    have := cos_sq (π / 2 * k)
    rw [show 2 * (π / 2 * k) = π * k by ring] at this
    have h1 := sin_sq_add_cos_sq (π / 2 * k)
    linarith
  have ht := (hill_tendsto k q).mul_const (1 - Complex.cos (π * k))
  rw [hv] at ht
  have e : ∀ N : ℕ, (((Spec.hill (k ^ 2) q N).det : ℝ) : ℂ) * (1 - Complex.cos (π * k)) =
      (((Spec.hill (k ^ 2) q N).det * (1 - cos (π * k)) : ℝ) : ℂ) := fun N => by push_cast; ring
  have e1 : (1 : ℂ) - (y π : ℝ) = ((1 - y π : ℝ) : ℂ) := by push_cast; ring
  simp only [e] at ht
  rw [e1] at ht
  have ht' := ((Complex.continuous_re.tendsto _).comp ht).div_const 2
  simp only [Function.comp_def, Complex.ofReal_re] at ht'
  refine ht'.congr fun N => ?_
  rw [hs, hka]
  ring

theorem arccos_half {c : ℝ} (h : |c| ≤ 1) : 2 / π * arcsin √((1 - c) / 2) = arccos c / π := by
  obtain ⟨h1, h2⟩ := abs_le.1 h
  have e := arccos_double (arccos c / 2)
  have hs : sin (arccos c / 2) ^ 2 = (1 - c) / 2 := by
    have h3 := cos_sq (arccos c / 2)
    rw [show 2 * (arccos c / 2) = arccos c by ring, cos_arccos h1 h2] at h3
    have h4 := sin_sq_add_cos_sq (arccos c / 2)
    linarith
  rw [hs, show 2 * (arccos c / 2) = arccos c by ring, cos_arccos h1 h2] at e
  rw [← e]
  ring

/-- C114: if the exponent is real, the exponents from determinants of growing order converge to it -/
theorem c114_accurate {a q : ℝ} (ha : 0 < a) (h4 : NotEvenSquare a) {y y' : ℝ → ℝ} (hy : SolvesMathieu a q y y') (h0 : y 0 = 1) (h0' : y' 0 = 0)
    {nu : ℝ} (hnu : nuExpIvp (y π) = .bounded nu) {ε : ℝ} (hε : 0 < ε) :
    ∃ N0 : ℕ, ∀ N, N0 ≤ N → ∀ nuN, nuExpDet a q N = .ok (.bounded nuN) → |nuN - nu| < ε := by
  have hb : |y π| ≤ 1 ∧ nu = arccos (y π) / π := by
    unfold nuExpIvp at hnu
    split at hnu
    · simp at hnu
    · rename_i h
      exact ⟨not_lt.1 h, by simpa using hnu.symm⟩
  have ht := c114_limit ha h4 hy h0 h0'
  have hc : ContinuousAt (fun x : ℝ => 2 / π * arcsin √x) ((1 - y π) / 2) := by
    have : Continuous fun x : ℝ => 2 / π * arcsin √x := continuous_const.mul (continuous_arcsin.comp continuous_sqrt)
    exact this.continuousAt
  have h := hc.tendsto.comp ht
  simp only [Function.comp_def] at h
  rw [arccos_half hb.1, ← hb.2] at h
  obtain ⟨N0, hN0⟩ := (Metric.tendsto_atTop.1 h) ε hε
  refine ⟨N0 + 1, fun N hN nuN hd => ?_⟩
  have h1 := hN0 N (by omega)
  rw [Real.dist_eq] at h1
  rw [nuExpDet_eq (by omega) ha.le (notEven_order h4 N)] at hd
  split at hd
  · simp at hd
  · have : 2 / π * arcsin √((Spec.hill a q N).det * sin (π / 2 * √a) ^ 2) = nuN := by simpa using hd
    rwa [this] at h1

/-- C114: and unless it is at the edge of stability there is such an exponent for every large order -/
theorem c114_bounded {a q : ℝ} (ha : 0 < a) (h4 : NotEvenSquare a) {y y' : ℝ → ℝ} (hy : SolvesMathieu a q y y') (h0 : y 0 = 1) (h0' : y' 0 = 0)
    (hb : |y π| < 1) : ∃ N0 : ℕ, ∀ N, N0 ≤ N → ∃ nuN, nuExpDet a q N = .ok (.bounded nuN) := by
  obtain ⟨h1, h2⟩ := abs_lt.1 hb
  have ht := c114_limit ha h4 hy h0 h0'
  have h := (ht.eventually (Ioo_mem_nhds (show 0 < (1 - y π) / 2 by linarith) (show (1 - y π) / 2 < 1 by linarith)))
  obtain ⟨N0, hN0⟩ := eventually_atTop.1 h
  refine ⟨N0 + 1, fun N hN => ?_⟩
  rw [nuExpDet_eq (by omega) ha.le (notEven_order h4 N), if_neg]
  · exact ⟨_, rfl⟩
  · have := hN0 N (by omega)
    rw [not_or, not_lt, not_lt]
    exact ⟨this.1.le, this.2.le⟩

/-- C114: if there is an exponentially growing solution, unbounded motion is reported for every large order -/
theorem c114_unbounded {a q : ℝ} (ha : 0 < a) (h4 : NotEvenSquare a) {y y' : ℝ → ℝ} (hy : SolvesMathieu a q y y') (h0 : y 0 = 1) (h0' : y' 0 = 0)
    (hb : 1 < |y π|) : ∃ N0 : ℕ, ∀ N, N0 ≤ N → ∃ r, nuExpDet a q N = .ok (.unbounded r) := by
  have ht := c114_limit ha h4 hy h0 h0'
  have h : ∀ᶠ N : ℕ in atTop, (Spec.hill a q N).det * sin (π / 2 * √a) ^ 2 < 0 ∨ 1 < (Spec.hill a q N).det * sin (π / 2 * √a) ^ 2 := by
    rcases lt_abs.1 hb with h | h
    · exact (ht.eventually (gt_mem_nhds (show (1 - y π) / 2 < 0 by linarith))).mono fun N hN => Or.inl hN
    · exact (ht.eventually (lt_mem_nhds (show 1 < (1 - y π) / 2 by linarith))).mono fun N hN => Or.inr hN
  obtain ⟨N0, hN0⟩ := eventually_atTop.1 h
  refine ⟨N0 + 1, fun N hN => ?_⟩
  rw [nuExpDet_eq (by omega) ha.le (notEven_order h4 N), if_pos (hN0 N (by omega))]
  exact ⟨_, rfl⟩

/-- C114: `nu_tolerance` started at a large enough order ends at once, within the tolerance of the characteristic exponent -/
theorem c114_tolerance {a q : ℝ} (ha : 0 < a) (h4 : NotEvenSquare a) {y y' : ℝ → ℝ} (hy : SolvesMathieu a q y y') (h0 : y 0 = 1) (h0' : y' 0 = 0)
    {nu : ℝ} (hnu : nuExpIvp (y π) = .bounded nu) (hb : |y π| < 1) {tol : ℝ} (ht : 0 < tol) (cc : Expo → Expo → Bool) :
    ∃ n0 : ℕ, ∀ nstart, n0 ≤ nstart → ∃ nuN, nuTolerance (nuExpDet a q) (nuClose cc tol) nstart = .ok (.bounded nuN, 2 * nstart) ∧ |nuN - nu| < tol := by
  obtain ⟨N1, hN1⟩ := c114_accurate ha h4 hy h0 h0' hnu (half_pos ht)
  obtain ⟨N2, hN2⟩ := c114_bounded ha h4 hy h0 h0' hb
  refine ⟨max N1 N2, fun n hn => ?_⟩
  have g1 : N1 ≤ n := (le_max_left _ _).trans hn
  have g2 : N2 ≤ n := (le_max_right _ _).trans hn
  obtain ⟨m1, e1⟩ := hN2 n g2
  obtain ⟨m2, e2⟩ := hN2 (n * 2) (by omega)
  have d1 := hN1 n g1 m1 e1
  have d2 := hN1 (n * 2) (by omega) m2 e2
  refine ⟨m2, ?_, by linarith⟩
  have hc : |m1 - m2| < tol := by
    rw [abs_lt] at *
    constructor <;> linarith [d1.1, d1.2, d2.1, d2.2]
  have hr : List.range 100 = 0 :: (List.range 99).map (· + 1) := by
    rw [show 100 = 99 + 1 by norm_num, List.range_succ_eq_map]
  unfold nuTolerance
  rw [hr]
  unfold nuTolLoop
  simp only [Nat.zero_add, Nat.mul_one, e1, e2]
  rw [if_pos (by simp [nuClose, hc]), Nat.mul_comm]

/-- C114: the code never gets there from negative `a`, nor if there is no static field: it gives nan, or divides by zero -/
theorem c114_fails (q : ℝ) (ntr : ℕ) (hn : 1 ≤ ntr) : (∀ a < 0, nuExpDet a q ntr = .ok .nan) ∧
    ∀ n : ℕ, n ≤ ntr → nuExpDet ((2 * n : ℝ) ^ 2) q ntr = .error .zeroDivisionError := by
  constructor
  · intro a ha
    unfold nuExpDet
    rw [if_neg, if_neg (by omega), if_pos ha]
    rintro ⟨n, -, h⟩
    have : 0 ≤ 4 * (n : ℝ) ^ 2 := by positivity
    linarith
  · intro n h
    unfold nuExpDet
    rw [if_pos ⟨n, h, by ring⟩]

/-! ### the first resonance -/

noncomputable def rw1 (t : ℝ) : ℝ := (cos (1 * t) - cos (3 * t)) / 8 + t / 2 * sin (1 * t)
noncomputable def rv1 (t : ℝ) : ℝ := (3 * sin (3 * t) - sin (1 * t)) / 8 + sin (1 * t) / 2 + t / 2 * cos (1 * t)

theorem rw1_deriv (t : ℝ) : HasDerivAt rw1 (rv1 t) t := by
  refine ((((deriv_cos_mul 1 t).sub (deriv_cos_mul 3 t)).div_const 8).add (((hasDerivAt_id' t).div_const 2).mul (deriv_sin_mul 1 t))).congr_deriv ?_
  unfold rv1
  ring

theorem rv1_deriv (t : ℝ) : HasDerivAt rv1 (-1 * rw1 t + 2 * cos (2 * t) * cos (1 * t)) t := by
  refine ((((((deriv_sin_mul 3 t).const_mul 3).sub (deriv_sin_mul 1 t)).div_const 8).add ((deriv_sin_mul 1 t).div_const 2)).add
    (((hasDerivAt_id' t).div_const 2).mul (deriv_cos_mul 1 t))).congr_deriv ?_
  rw [two_cos_mul]
  unfold rw1
  norm_num
  ring

noncomputable def rw2 (t : ℝ) : ℝ :=
  -(cos (3 * t) / 16) + cos (5 * t) / 192 - t / 16 * sin (3 * t) + t ^ 2 / 8 * cos (1 * t) - t / 8 * sin (1 * t) + 11 / 192 * cos (1 * t)
noncomputable def rv2 (t : ℝ) : ℝ :=
  3 * sin (3 * t) / 16 - 5 * sin (5 * t) / 192 - sin (3 * t) / 16 - 3 * t / 16 * cos (3 * t) + t / 4 * cos (1 * t) - t ^ 2 / 8 * sin (1 * t) -
    sin (1 * t) / 8 - t / 8 * cos (1 * t) - 11 / 192 * sin (1 * t)

theorem rw2_deriv (t : ℝ) : HasDerivAt rw2 (rv2 t) t := by
  refine (((((((deriv_cos_mul 3 t).div_const 16).neg.add ((deriv_cos_mul 5 t).div_const 192)).sub
    (((hasDerivAt_id' t).div_const 16).mul (deriv_sin_mul 3 t))).add
    ((((hasDerivAt_id' t).pow 2).div_const 8).mul (deriv_cos_mul 1 t))).sub (((hasDerivAt_id' t).div_const 8).mul (deriv_sin_mul 1 t))).add
    ((deriv_cos_mul 1 t).const_mul (11 / 192))).congr_deriv ?_
  unfold rv2
  simp only [Pi.pow_apply]
  norm_num
  ring

theorem two_cos_sin (t : ℝ) : 2 * cos (2 * t) * sin (1 * t) = sin (3 * t) - sin (1 * t) := by
  rw [show 3 * t = 2 * t + 1 * t by ring, sin_add, show (1 : ℝ) * t = t by ring, sin_two_mul, cos_two_mul]
  have := sin_sq_add_cos_sq t
  ring

theorem rv2_deriv (t : ℝ) : HasDerivAt rv2 (-1 * rw2 t + 2 * cos (2 * t) * rw1 t) t := by
  refine ((((((((((deriv_sin_mul 3 t).const_mul 3).div_const 16).sub (((deriv_sin_mul 5 t).const_mul 5).div_const 192)).sub
    ((deriv_sin_mul 3 t).div_const 16)).sub ((((hasDerivAt_id' t).const_mul 3).div_const 16).mul (deriv_cos_mul 3 t))).add
    (((hasDerivAt_id' t).div_const 4).mul (deriv_cos_mul 1 t))).sub ((((hasDerivAt_id' t).pow 2).div_const 8).mul (deriv_sin_mul 1 t))).sub
    ((deriv_sin_mul 1 t).div_const 8)).sub (((hasDerivAt_id' t).div_const 8).mul (deriv_cos_mul 1 t))).sub
    ((deriv_sin_mul 1 t).const_mul (11 / 192)) |>.congr_deriv ?_
  have e1 := two_cos_mul 1 t
  have e3 := two_cos_mul 3 t
  have es := two_cos_sin t
  norm_num at e1 e3 es
  unfold rw1 rw2
  simp only [Pi.pow_apply]
  norm_num
  linear_combination -(1 / 8 : ℝ) * e1 + (1 / 8 : ℝ) * e3 - t / 2 * es

/-- C114: at the first resonance every small field makes the motion unbounded, and `nu_exp_det` reports it for every large order -/
theorem c114_resonance : ∃ δ : ℝ, 0 < δ ∧ ∀ q : ℝ, 0 < |q| → |q| < δ →
    (∃ z z' : ℝ → ℝ, SolvesMathieu 1 q z z' ∧ ∀ B, ∃ t, B < |z t|) ∧ ∃ N0 : ℕ, ∀ N, N0 ≤ N → ∃ r, nuExpDet 1 q N = .ok (.unbounded r) := by
  obtain ⟨C, hC, h⟩ := mathieu_second (a := 1) (y0 := fun t => cos (1 * t)) (y0' := fun t => -(1 * sin (1 * t))) (y1 := rw1) (y1' := rv1) (y2 := rw2) (y2' := rv2)
    (fun t => ⟨deriv_cos_mul 1 t, ((deriv_sin_mul 1 t).const_mul 1).neg.congr_deriv (by ring)⟩) (fun t => ⟨rw1_deriv t, rv1_deriv t⟩)
    (fun t => ⟨rw2_deriv t, rv2_deriv t⟩) (by simp) (by simp [rw1, rv1]) (by norm_num [rw2, rv2])
  have p3 : cos (3 * π) = -1 := by
    rw [show 3 * π = π + 2 * π by ring, cos_add_two_pi, cos_pi]
  have p5 : cos (5 * π) = -1 := by
    rw [show 5 * π = π + 2 * π + 2 * π by ring, cos_add_two_pi, cos_add_two_pi, cos_pi]
  have s3 : sin (3 * π) = 0 := by
    rw [show 3 * π = π + 2 * π by ring, sin_add_two_pi, sin_pi]
  have v1 : rw1 π = 0 := by
    unfold rw1
    rw [p3, one_mul, cos_pi, sin_pi]
    ring
  have v2 : rw2 π = -(π ^ 2 / 8) := by
    unfold rw2
    rw [p3, p5, s3, one_mul, cos_pi, sin_pi]
    ring
  refine ⟨min 1 (1 / (C + 1)), by positivity, fun q hq0 hq => ?_⟩
  obtain ⟨y, y', hy, y0, y0'⟩ := mathieu_exists 1 q 1 0
  have hq1 : |q| < 1 := hq.trans_le (min_le_left _ _)
  have hq2 : |q| * (C + 1) < 1 := by
    have := hq.trans_le (min_le_right _ _)
    rwa [lt_div_iff₀ (by linarith)] at this
  have hb := h q hq1.le y y' hy y0 y0'
  simp only [v1, v2, one_mul, cos_pi] at hb
  have hbig : 1 < |y π| := by
    refine lt_abs.2 (Or.inr ?_)
    have h1 := (abs_le.1 hb).2
    have hp := pi_gt_three
    have h2 : C * |q| ^ 3 ≤ |q| ^ 2 := by
      have h3 : C * |q| ≤ 1 := by nlinarith
      have h4 : 0 ≤ |q| ^ 2 := by positivity
      calc C * |q| ^ 3 = C * |q| * |q| ^ 2 := by ring
        _ ≤ 1 * |q| ^ 2 := mul_le_mul_of_nonneg_right h3 h4
        _ = _ := one_mul _
    have h5 : 0 < |q| ^ 2 := by positivity
    have h6 : |q| ^ 2 = q ^ 2 := sq_abs q
    have h7 : |q| ^ 2 * 1 < |q| ^ 2 * (π ^ 2 / 8) := mul_lt_mul_of_pos_left (by nlinarith) h5
    rw [← h6] at h1
    linarith
  refine ⟨⟨y, y', hy, c108_unbounded hy y0 y0' (x := y π) (if_pos hbig)⟩, c114_unbounded one_pos ?_ hy y0 y0' hbig⟩
  intro n hn
  have : (1 : ℕ) = (2 * n) ^ 2 := by exact_mod_cast hn
  have h2 : (2 * n) ^ 2 = 4 * n ^ 2 := by ring
  omega

/-! the hypotheses can be met -/

/-- with a field: `q` is not zero and the motion is bounded -/
example : ∃ q : ℝ, q ≠ 0 ∧ NotEvenSquare (1 / 4) ∧ ∃ y y', SolvesMathieu (1 / 4) q y y' ∧ y 0 = 1 ∧ y' 0 = 0 ∧ |y π| < 1 ∧
    ∃ nu, nuExpIvp (y π) = .bounded nu := by
  obtain ⟨E, hE⟩ : ∃ E, E = exp ((3 + 1) * π) := ⟨_, rfl⟩
  have hE0 : 0 < E := by rw [hE]; exact exp_pos _
  have hE1 : 1 ≤ E := by rw [hE]; exact one_le_exp (by positivity)
  obtain ⟨y, y', hy, y0, y0'⟩ := mathieu_exists (1 / 4) (1 / (4 * E)) 1 0
  have hq : 0 < 1 / (4 * E) := by positivity
  have hq1 : 1 / (4 * E) ≤ 1 := by rw [div_le_one (by positivity)]; linarith
  have hn := mathieu_near (A := 1) (ε := 2 * (1 / (4 * E))) (z := fun t => cos (1 / 2 * t)) (z' := fun t => -(1 / 2 * sin (1 / 2 * t)))
    (e := fun t => -(2 * (1 / (4 * E)) * (cos (2 * t) * cos (1 / 2 * t)))) hy
    (fun t => ⟨deriv_cos_mul _ t, ((deriv_sin_mul _ t).const_mul _).neg.congr_deriv (by ring)⟩) (by simp [y0]) (by simp [y0'])
    (fun t _ => by
      rw [abs_neg, abs_mul, abs_of_pos (by positivity : 0 < 2 * (1 / (4 * E))), abs_mul]
      have h1 := abs_cos_le_one (2 * t)
      have h2 := abs_cos_le_one (1 / 2 * t)
      have : |cos (2 * t)| * |cos (1 / 2 * t)| ≤ 1 := mul_le_one₀ h1 (abs_nonneg _) h2
      nlinarith) (by norm_num) (by rw [abs_of_pos hq]; exact hq1)
  have hc : cos (1 / 2 * π) = 0 := by rw [show 1 / 2 * π = π / 2 by ring, cos_pi_div_two]
  rw [← hE, hc, sub_zero, show 2 * (1 / (4 * E)) * E = 1 / 2 by field_simp; norm_num] at hn
  refine ⟨_, hq.ne', fun n h => quarter_ok n (by rw [h]; ring), y, y', hy, y0, y0', by linarith, ?_⟩
  exact ⟨_, if_neg (by linarith)⟩

end Electrode
