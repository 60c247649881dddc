import Verif.Props.Orient
import Mathlib.Analysis.SpecialFunctions.Trigonometric.Cotangent
import Mathlib.MeasureTheory.Integral.IntegralEqImproper
import Mathlib.Analysis.SpecialFunctions.Trigonometric.ArctanDeriv
import Mathlib.Analysis.SpecialFunctions.Trigonometric.DerivHyp

/-
Sums over the images of a cover plane, for C121.
-/
namespace Electrode
open Real MeasureTheory Set Filter Topology Spec

namespace Cover

/-! ### The sum of all images of `x / (x² + σ²)²` -/

/-- `x / (x² + σ²)²`; the potential of a surface element is an integral of this -/
noncomputable def kern (σ x : ℝ) : ℝ := x / (x ^ 2 + σ ^ 2) ^ 2

theorem sum_sq {w : ℂ} (hw : 0 < w.im) : HasSum (fun n : ℤ => 1 / (w + n) ^ 2) (π ^ 2 / Complex.sin (π * w) ^ 2) := by
  have hs : Summable fun n : ℤ => 1 / (w + n) ^ 2 := by
    have := EisensteinSeries.linear_right_summable w 1 (k := 2) le_rfl
    refine this.congr fun n => ?_
    simp [zpow_ofNat]
  have key := iteratedDerivWithin_cot_pi_mul_eq_mul_tsum_div_pow (k := 1) le_rfl (z := w) hw
  have hsin : Complex.sin (π * w) ≠ 0 := by
    rw [Complex.sin_ne_zero_iff]
    intro k h
    have h1 := congrArg Complex.im h
    rw [Complex.im_ofReal_mul, show (k * π : ℂ) = ((k * π : ℝ) : ℂ) by push_cast; rfl, Complex.ofReal_im] at h1
    exact (mul_pos pi_pos hw).ne' h1
  have hd : HasDerivAt (fun x : ℂ => π * Complex.cot (π * x)) (-(π ^ 2 / Complex.sin (π * w) ^ 2)) w := by
    have h1 : HasDerivAt (fun x : ℂ => (π : ℂ) * x) π w := by simpa using (hasDerivAt_id w).const_mul (π : ℂ)
    have h2 := ((h1.ccos.div h1.csin hsin)).const_mul (π : ℂ)
    refine (h2.congr_of_eventuallyEq (Eventually.of_forall fun x => ?_)).congr_deriv ?_
    · rfl
    · have := Complex.sin_sq_add_cos_sq (π * w)
      field_simp
      linear_combination -this
  rw [iteratedDerivWithin_one, hd.hasDerivWithinAt.derivWithin (UpperHalfPlane.isOpen_upperHalfPlaneSet.uniqueDiffWithinAt hw)] at key
  have e : ∑' n : ℤ, 1 / (w + n) ^ 2 = π ^ 2 / Complex.sin (π * w) ^ 2 := by
    simp only [pow_one, Nat.factorial_one, Nat.cast_one, mul_one, Nat.reduceAdd] at key
    linear_combination key
  rw [← e]
  exact hs.hasSum

/-- the sum of all images -/
noncomputable def kernSum (h σ z : ℝ) : ℝ :=
  -(1 / (2 * σ) * (1 / (4 * h ^ 2)) * (π ^ 2 / Complex.sin (π * ((z + σ * Complex.I) / (2 * h))) ^ 2 : ℂ).im)

theorem kern_sum {h σ z : ℝ} (hh : 0 < h) (hσ : 0 < σ) : HasSum (fun n : ℤ => kern σ (z + 2 * n * h)) (kernSum h σ z) := by
  have hw : 0 < ((z + σ * Complex.I) / (2 * h) : ℂ).im := by
    have : ((z + σ * Complex.I) / (2 * h) : ℂ) = ((z / (2 * h) : ℝ) : ℂ) + ((σ / (2 * h) : ℝ) : ℂ) * Complex.I := by
      push_cast
      ring
    rw [this, Complex.add_im, Complex.ofReal_im, Complex.mul_I_im, Complex.ofReal_re]
    positivity
  have h1 := (Complex.hasSum_im (sum_sq hw)).mul_left (-(1 / (2 * σ) * (1 / (4 * h ^ 2))))
  unfold kernSum
  rw [← neg_mul]
  refine Eq.mp (congrArg (fun f => HasSum f _) (funext fun n => ?_)) h1
  symm
  have e : (1 / ((z + σ * Complex.I) / (2 * h) + n) ^ 2 : ℂ)
      = ((4 * h ^ 2 / ((z + 2 * n * h) ^ 2 + σ ^ 2) ^ 2 : ℝ) : ℂ)
        * ((((z + 2 * n * h) ^ 2 - σ ^ 2 : ℝ) : ℂ) + ((-(2 * (z + 2 * n * h) * σ) : ℝ) : ℂ) * Complex.I) := by
    have hne : ((z + 2 * n * h) ^ 2 + σ ^ 2 : ℝ) ≠ 0 := by positivity
    have hne' : (((z + 2 * n * h : ℝ) : ℂ) ^ 2 + (σ : ℂ) ^ 2) ≠ 0 := by exact_mod_cast hne
    have hf : (((z + 2 * n * h : ℝ) : ℂ) ^ 2 + (σ : ℂ) ^ 2)
        = (((z + 2 * n * h : ℝ) : ℂ) + σ * Complex.I) * (((z + 2 * n * h : ℝ) : ℂ) - σ * Complex.I) := by
      linear_combination (σ : ℂ) ^ 2 * Complex.I_sq
    have hn1 : (((z + 2 * n * h : ℝ) : ℂ) + σ * Complex.I) ≠ 0 := fun h0 => hne' (by rw [hf, h0, zero_mul])
    have hn2 : (((z + 2 * n * h : ℝ) : ℂ) - σ * Complex.I) ≠ 0 := fun h0 => hne' (by rw [hf, h0, mul_zero])
    have hh' : (h : ℂ) ≠ 0 := by exact_mod_cast hh.ne'
    have e1 : ((z + σ * Complex.I) / (2 * h) + n : ℂ) = (((z + 2 * n * h : ℝ) : ℂ) + σ * Complex.I) / (2 * h) := by
      push_cast
      field_simp
      ring
    rw [e1]
    have e2 : ((4 * h ^ 2 / ((z + 2 * n * h) ^ 2 + σ ^ 2) ^ 2 : ℝ) : ℂ)
        = 4 * h ^ 2 / ((((z + 2 * n * h : ℝ) : ℂ) + σ * Complex.I) * (((z + 2 * n * h : ℝ) : ℂ) - σ * Complex.I)) ^ 2 := by
      rw [← hf]
      push_cast
      rfl
    have e3 : (((z + 2 * n * h) ^ 2 - σ ^ 2 : ℝ) : ℂ) + ((-(2 * (z + 2 * n * h) * σ) : ℝ) : ℂ) * Complex.I
        = (((z + 2 * n * h : ℝ) : ℂ) - σ * Complex.I) ^ 2 := by
      push_cast
      linear_combination (-(σ : ℂ) ^ 2) * Complex.I_sq
    rw [e2, e3]
    field_simp
    norm_num
  rw [e, Complex.im_ofReal_mul, Complex.add_im, Complex.ofReal_im, Complex.mul_I_im, Complex.ofReal_re, kern]
  field_simp
  ring

theorem kernSum_pos {h σ z : ℝ} (hσ : 0 < σ) (hz : 0 < z) (hzh : z < h) : 0 < kernSum h σ z := by
  have hh : 0 < h := hz.trans hzh
  have ew : (π * ((z + σ * Complex.I) / (2 * h)) : ℂ) = ((π * z / (2 * h) : ℝ) : ℂ) + ((π * σ / (2 * h) : ℝ) : ℂ) * Complex.I := by
    push_cast
    ring
  set a := π * z / (2 * h) with ha
  set b := π * σ / (2 * h) with hb
  have a0 : 0 < a := by positivity
  have a1 : a < π / 2 := by
    rw [ha, div_lt_div_iff₀ (by positivity) two_pos]
    nlinarith [pi_pos]
  have b0 : 0 < b := by positivity
  have hs : Complex.sin (a + b * Complex.I) ^ 2
      = ((((Real.sin a * Real.cosh b) ^ 2 - (Real.cos a * Real.sinh b) ^ 2 : ℝ) : ℂ)
        + ((2 * (Real.sin a * Real.cosh b) * (Real.cos a * Real.sinh b) : ℝ) : ℂ) * Complex.I) := by
    rw [Complex.sin_add_mul_I, ← Complex.ofReal_sin, ← Complex.ofReal_cos, ← Complex.ofReal_sinh, ← Complex.ofReal_cosh]
    push_cast
    linear_combination (Complex.cos a * Complex.sinh b) ^ 2 * Complex.I_sq
  have him : 0 < (Complex.sin (a + b * Complex.I) ^ 2).im := by
    rw [hs, Complex.add_im, Complex.ofReal_im, Complex.mul_I_im, Complex.ofReal_re, zero_add]
    have := Real.sin_pos_of_pos_of_lt_pi a0 (by linarith [pi_pos])
    have := Real.cos_pos_of_mem_Ioo ⟨by linarith [pi_pos], a1⟩
    have := Real.sinh_pos_iff.2 b0
    have := Real.cosh_pos b
    positivity
  have h0 : 0 < Complex.normSq (Complex.sin (a + b * Complex.I) ^ 2) := by
    rw [Complex.normSq_pos]
    intro h0
    rw [h0] at him
    exact lt_irrefl _ him
  unfold kernSum
  rw [ew, show (π ^ 2 / Complex.sin (a + b * Complex.I) ^ 2 : ℂ) = ((π ^ 2 : ℝ) : ℂ) * (Complex.sin (a + b * Complex.I) ^ 2)⁻¹ by
    push_cast; rfl, Complex.im_ofReal_mul, Complex.inv_im]
  have : 0 < 1 / (2 * σ) * (1 / (4 * h ^ 2)) * (π ^ 2 * ((Complex.sin (a + b * Complex.I) ^ 2).im / Complex.normSq (Complex.sin (a + b * Complex.I) ^ 2))) := by
    have := pi_pos
    positivity
  rw [neg_div, mul_neg, mul_neg, neg_neg]
  exact this

/-! ### Finitely many images -/

/-- what the images number `n` and `-n` add -/
noncomputable def pair (f : ℝ → ℝ) (h z : ℝ) (n : ℕ) : ℝ := f (2 * n * h + z) - f (2 * n * h - z)

/-- the first images of an odd function -/
theorem images_succ {f : ℝ → ℝ} (hf : ∀ x, f (-x) = -f x) (h z : ℝ) (n : ℕ) :
    ∑ m ∈ Finset.Icc (-((n + 1 : ℕ) : ℤ)) (n + 1 : ℕ), f (z + 2 * m * h)
      = ∑ m ∈ Finset.Icc (-(n : ℤ)) n, f (z + 2 * m * h) + pair f h z (n + 1) := by
  have e : Finset.Icc (-((n + 1 : ℕ) : ℤ)) (n + 1 : ℕ) = insert (-((n + 1 : ℕ) : ℤ)) (insert ((n + 1 : ℕ) : ℤ) (Finset.Icc (-(n : ℤ)) n)) := by
    ext m
    simp only [Finset.mem_Icc, Finset.mem_insert]
    omega
  rw [e, Finset.sum_insert (by simp; omega), Finset.sum_insert (by simp)]
  unfold pair
  have : f (z + 2 * ((-((n + 1 : ℕ) : ℤ) : ℤ) : ℝ) * h) = -f (2 * ((n + 1 : ℕ) : ℝ) * h - z) := by
    rw [← hf]
    congr 1
    push_cast
    ring
  rw [this]
  have : f (z + 2 * (((n + 1 : ℕ) : ℤ) : ℝ) * h) = f (2 * ((n + 1 : ℕ) : ℝ) * h + z) := by
    congr 1
    push_cast
    ring
  rw [this]
  ring

theorem images_zero (f : ℝ → ℝ) (h z : ℝ) : ∑ m ∈ Finset.Icc (-((0 : ℕ) : ℤ)) (0 : ℕ), f (z + 2 * m * h) = f z := by simp

theorem icc_tendsto : Tendsto (fun n : ℕ => Finset.Icc (-(n : ℤ)) n) atTop atTop := by
  refine tendsto_atTop_finset_of_monotone (fun a b hab => ?_) fun x => ⟨x.natAbs, ?_⟩
  · exact Finset.Icc_subset_Icc (by omega) (by omega)
  · simp only [Finset.mem_Icc]
    omega

theorem kern_odd (σ x : ℝ) : kern σ (-x) = -kern σ x := by
  unfold kern
  ring

/-- the images of `kern` first add and then subtract -/
theorem pair_sign {σ h z : ℝ} (hz : 0 < z) (hzh : z < h) {m n : ℕ} (hm : 1 ≤ m) (hmn : m ≤ n) (h0 : pair (kern σ) h z m ≤ 0) :
    pair (kern σ) h z n ≤ 0 := by
  have form : ∀ k : ℕ, 1 ≤ k → ∃ c > 0, pair (kern σ) h z k = c * (σ ^ 4 - 2 * ((2 * k * h - z) * (2 * k * h + z)) * σ ^ 2
      - (2 * k * h - z) * (2 * k * h + z) * ((2 * k * h - z) ^ 2 + (2 * k * h - z) * (2 * k * h + z) + (2 * k * h + z) ^ 2)) := by
    intro k hk
    have hk' : (1 : ℝ) ≤ k := by exact_mod_cast hk
    have p1 : 0 < 2 * k * h - z := by nlinarith
    have p2 : 0 < 2 * k * h + z := by nlinarith
    refine ⟨2 * z / (((2 * k * h + z) ^ 2 + σ ^ 2) ^ 2 * ((2 * k * h - z) ^ 2 + σ ^ 2) ^ 2), by positivity, ?_⟩
    unfold pair kern
    field_simp
    ring
  obtain ⟨c, hc, e⟩ := form m hm
  obtain ⟨d, hd, e'⟩ := form n (hm.trans hmn)
  have hm' : (1 : ℝ) ≤ m := by exact_mod_cast hm
  have hmn' : (m : ℝ) ≤ n := by exact_mod_cast hmn
  have hh : 0 < h := hz.trans hzh
  rw [e] at h0
  rw [e']
  have h1 := nonpos_of_mul_nonpos_right h0 hc
  refine mul_nonpos_of_nonneg_of_nonpos hd.le (le_trans ?_ h1)
  have q1 : 2 * m * h - z ≤ 2 * n * h - z := by nlinarith
  have q2 : 2 * m * h + z ≤ 2 * n * h + z := by nlinarith
  have q0 : 0 < 2 * m * h - z := by nlinarith
  have q3 : 0 < 2 * m * h + z := by nlinarith
  generalize 2 * m * h - z = a at *
  generalize 2 * m * h + z = b at *
  generalize 2 * n * h - z = a' at *
  generalize 2 * n * h + z = b' at *
  have q4 : 0 ≤ a' := q0.le.trans q1
  have q5 : 0 ≤ b' := q3.le.trans q2
  have r1 : a * b ≤ a' * b' := by gcongr
  have r2 : a ^ 2 + a * b + b ^ 2 ≤ a' ^ 2 + a' * b' + b' ^ 2 := by gcongr
  have r3 : a * b * (a ^ 2 + a * b + b ^ 2) ≤ a' * b' * (a' ^ 2 + a' * b' + b' ^ 2) := by gcongr
  nlinarith [sq_nonneg σ]

/-- finitely many images: at least the smaller of no image and all images -/
theorem kern_images {σ h z : ℝ} (hσ : 0 < σ) (hz : 0 < z) (hzh : z < h) (n : ℕ) :
    min (kernSum h σ z) (kern σ z) ≤ ∑ m ∈ Finset.Icc (-(n : ℤ)) n, kern σ (z + 2 * m * h) := by
  have hh : 0 < h := hz.trans hzh
  by_cases hp : pair (kern σ) h z (n + 1) ≤ 0
  · refine (min_le_left _ _).trans ?_
    have anti : ∀ k, ∑ m ∈ Finset.Icc (-((n + k : ℕ) : ℤ)) (n + k : ℕ), kern σ (z + 2 * m * h)
        ≤ ∑ m ∈ Finset.Icc (-(n : ℤ)) n, kern σ (z + 2 * m * h) := by
      intro k
      induction k with
      | zero => simp
      | succ k ih =>
        rw [← add_assoc, images_succ (kern_odd σ)]
        have := pair_sign hz hzh (σ := σ) (m := n + 1) (n := n + k + 1) (by omega) (by omega) hp
        linarith
    have lim := (kern_sum (z := z) hh hσ).comp icc_tendsto
    refine le_of_tendsto lim (eventually_atTop.2 ⟨n, fun k hk => ?_⟩)
    obtain ⟨j, rfl⟩ := Nat.exists_eq_add_of_le hk
    exact anti j
  · refine (min_le_right _ _).trans ?_
    have mono : ∀ k ≤ n, kern σ z ≤ ∑ m ∈ Finset.Icc (-(k : ℤ)) k, kern σ (z + 2 * m * h) := by
      intro k
      induction k with
      | zero => intro _; rw [images_zero]
      | succ k ih =>
        intro hk
        rw [images_succ (kern_odd σ)]
        have h1 : 0 ≤ pair (kern σ) h z (k + 1) := by
          by_contra h1
          exact hp (pair_sign hz hzh (by omega) (by omega) (not_le.1 h1).le)
        have := ih (by omega)
        linarith
    exact mono n le_rfl

/-! ### The potential of a surface element as an integral -/

/-- `kern` at the distances `√(c + s²)` -/
theorem kern_sqrt {c : ℝ} (hc : 0 ≤ c) (s x : ℝ) : kern √(c + s ^ 2) x = x / (c + x ^ 2 + s ^ 2) ^ 2 := by
  unfold kern
  rw [Real.sq_sqrt (by positivity)]
  ring

theorem quad_integral {A : ℝ} (hA : 0 < A) :
    IntegrableOn (fun s : ℝ => 1 / (A ^ 2 + s ^ 2) ^ 2) (Ioi 0) ∧ ∫ s in Ioi (0 : ℝ), 1 / (A ^ 2 + s ^ 2) ^ 2 = π / (4 * A ^ 3) := by
  have hd : ∀ s ∈ Ici (0 : ℝ), HasDerivAt (fun s => s / (2 * A ^ 2 * (A ^ 2 + s ^ 2)) + arctan (s / A) / (2 * A ^ 3))
      (1 / (A ^ 2 + s ^ 2) ^ 2) s := by
    intro s _
    have h1 : HasDerivAt (fun s : ℝ => 2 * A ^ 2 * (A ^ 2 + s ^ 2)) (2 * A ^ 2 * (2 * s)) s := by
      have := ((hasDerivAt_pow 2 s).const_add (A ^ 2)).const_mul (2 * A ^ 2)
      simpa using this
    have h2 := (hasDerivAt_id s).div h1 (by positivity)
    have h3 := ((((hasDerivAt_id s).div_const A).arctan).div_const (2 * A ^ 3))
    refine (h2.add h3).congr_deriv ?_
    simp only [id]
    have : A ^ 2 + s ^ 2 ≠ 0 := by positivity
    have : 1 + (s / A) ^ 2 = (A ^ 2 + s ^ 2) / A ^ 2 := by field_simp
    rw [this]
    field_simp
    ring
  have hp : ∀ s ∈ Ioi (0 : ℝ), 0 ≤ 1 / (A ^ 2 + s ^ 2) ^ 2 := fun s _ => by positivity
  have hl : Tendsto (fun s : ℝ => s / (2 * A ^ 2 * (A ^ 2 + s ^ 2)) + arctan (s / A) / (2 * A ^ 3)) atTop (𝓝 (0 + π / 2 / (2 * A ^ 3))) := by
    refine Tendsto.add ?_ ?_
    · have h1 : Tendsto (fun s : ℝ => 1 / (2 * A ^ 2) * s⁻¹) atTop (𝓝 0) := by
        have := (tendsto_inv_atTop_zero (𝕜 := ℝ)).const_mul (1 / (2 * A ^ 2))
        rwa [mul_zero] at this
      refine squeeze_zero' (eventually_atTop.2 ⟨0, fun s hs => by positivity⟩) (eventually_atTop.2 ⟨1, fun s hs => ?_⟩) h1
      have hs0 : 0 < s := by linarith
      rw [show 1 / (2 * A ^ 2) * s⁻¹ = s / (2 * A ^ 2 * s ^ 2) by field_simp]
      gcongr
      nlinarith [sq_nonneg A]
    · refine ((tendsto_nhds_of_tendsto_nhdsWithin tendsto_arctan_atTop).comp (tendsto_id.atTop_div_const hA)).div_const _
  refine ⟨integrableOn_Ioi_deriv_of_nonneg' hd hp hl, ?_⟩
  rw [integral_Ioi_of_hasDerivAt_of_nonneg' hd hp hl]
  simp
  ring

/-- distance from the axis through the element, squared -/
noncomputable def lat (x y : ℝ) (q : ℝ × ℝ) : ℝ := (x - q.1) ^ 2 + (y - q.2) ^ 2

theorem lat_nonneg (x y : ℝ) (q : ℝ × ℝ) : 0 ≤ lat x y q := by unfold lat; positivity

theorem pixel_kern {x y z : ℝ} (hz : z ≠ 0) (q : ℝ × ℝ) :
    IntegrableOn (fun s => kern √(lat x y q + s ^ 2) z) (Ioi 0) ∧
    pixelAt ⟨x, y, z⟩ q = 2 / π ^ 2 * ∫ s in Ioi (0 : ℝ), kern √(lat x y q + s ^ 2) z := by
  have hc := lat_nonneg x y q
  have hp : 0 < lat x y q + z ^ 2 := by positivity
  have hA : 0 < √(lat x y q + z ^ 2) := Real.sqrt_pos.2 hp
  obtain ⟨h1, h2⟩ := quad_integral hA
  have e : (fun s => kern √(lat x y q + s ^ 2) z) = fun s => z * (1 / (√(lat x y q + z ^ 2) ^ 2 + s ^ 2) ^ 2) := by
    funext s
    rw [kern_sqrt hc, Real.sq_sqrt hp.le]
    ring
  rw [e]
  refine ⟨h1.const_mul z, ?_⟩
  rw [integral_const_mul, h2]
  unfold pixelAt
  rw [show (x - q.1) ^ 2 + (y - q.2) ^ 2 + z ^ 2 = lat x y q + z ^ 2 from rfl]
  have := pi_pos
  field_simp
  norm_num

/-- a positive number below the potential of a surface element with any number of images -/
noncomputable def pixelFloor (h x y z : ℝ) (q : ℝ × ℝ) : ℝ :=
  2 / π ^ 2 * ∫ s in Ioi (0 : ℝ), min (kernSum h √(lat x y q + s ^ 2) z) (kern √(lat x y q + s ^ 2) z)

theorem image_ne {h z : ℝ} (hz : 0 < z) (hzh : z < h) (m : ℤ) : z + 2 * m * h ≠ 0 := by
  intro h0
  rcases lt_or_ge m 0 with hm | hm
  · have : (m : ℝ) ≤ -1 := by exact_mod_cast (by omega : m ≤ -1)
    nlinarith
  · have : (0 : ℝ) ≤ m := by exact_mod_cast hm
    have : 0 ≤ (m : ℝ) * h := mul_nonneg this (hz.trans hzh).le
    nlinarith

theorem floor_integrable {h x y z : ℝ} (hz : 0 < z) (hzh : z < h) (q : ℝ × ℝ) :
    IntegrableOn (fun s => min (kernSum h √(lat x y q + s ^ 2) z) (kern √(lat x y q + s ^ 2) z)) (Ioi 0) := by
  refine Integrable.mono' (pixel_kern (x := x) (y := y) hz.ne' q).1 ?_ ?_
  · refine Measurable.aestronglyMeasurable ?_
    refine Measurable.min ?_ ?_
    · unfold kernSum
      fun_prop
    · unfold kern
      fun_prop
  · refine (ae_restrict_iff' measurableSet_Ioi).2 (Eventually.of_forall fun s hs => ?_)
    have hs' : (0 : ℝ) < s := hs
    have hσ : 0 < √(lat x y q + s ^ 2) := Real.sqrt_pos.2 (by have := lat_nonneg x y q; positivity)
    rw [Real.norm_eq_abs, abs_of_nonneg (le_min (kernSum_pos hσ hz hzh).le (by unfold kern; positivity))]
    exact min_le_right _ _

theorem floor_pos {h x y z : ℝ} (hz : 0 < z) (hzh : z < h) (q : ℝ × ℝ) : 0 < pixelFloor h x y z q := by
  have hpos : ∀ s ∈ Ioi (0 : ℝ), 0 < min (kernSum h √(lat x y q + s ^ 2) z) (kern √(lat x y q + s ^ 2) z) := by
    intro s hs
    have hs' : (0 : ℝ) < s := hs
    have hσ : 0 < √(lat x y q + s ^ 2) := Real.sqrt_pos.2 (by have := lat_nonneg x y q; positivity)
    exact lt_min (kernSum_pos hσ hz hzh) (by unfold kern; positivity)
  unfold pixelFloor
  refine mul_pos (by have := pi_pos; positivity) ?_
  rw [setIntegral_pos_iff_support_of_nonneg_ae ((ae_restrict_iff' measurableSet_Ioi).2 (Eventually.of_forall fun s hs => (hpos s hs).le))
    (floor_integrable hz hzh q)]
  refine lt_of_lt_of_le ?_ (measure_mono (show Ioi (0 : ℝ) ⊆ _ from fun s hs => ⟨(hpos s hs).ne', hs⟩))
  simp

/-- the potential of a surface element with any number of images stays above a positive number -/
theorem pixel_images {h x y z : ℝ} (hz : 0 < z) (hzh : z < h) (q : ℝ × ℝ) (n : ℕ) :
    pixelFloor h x y z q ≤ ∑ m ∈ Finset.Icc (-(n : ℤ)) n, pixelAt ⟨x, y, z + 2 * m * h⟩ q := by
  simp only [fun m : ℤ => (pixel_kern (x := x) (y := y) (image_ne hz hzh m) q).2]
  rw [← Finset.mul_sum, ← integral_finsetSum _ fun m _ => (pixel_kern (x := x) (y := y) (image_ne hz hzh m) q).1]
  unfold pixelFloor
  refine mul_le_mul_of_nonneg_left ?_ (by positivity)
  refine setIntegral_mono_on (floor_integrable hz hzh q)
    (integrable_finsetSum _ fun m _ => (pixel_kern (x := x) (y := y) (image_ne hz hzh m) q).1) measurableSet_Ioi fun s hs => ?_
  have hs' : (0 : ℝ) < s := hs
  have hσ : 0 < √(lat x y q + s ^ 2) := Real.sqrt_pos.2 (by have := lat_nonneg x y q; positivity)
  exact kern_images hσ hz hzh n

/-! ### All images -/

/-- what is needed of the potential as a function of the height, without images -/
structure Screened (f : ℝ → ℝ) (B : ℝ) : Prop where
  odd : ∀ x, f (-x) = -f x
  floor : ∀ h z, 0 < z → z < h → ∃ c > 0, ∀ n : ℕ, c ≤ ∑ m ∈ Finset.Icc (-(n : ℤ)) n, f (z + 2 * m * h)
  bound : ∀ a b, 0 < a → a ≤ b → |f b - f a| ≤ B * (b - a) / (2 * a ^ 3)
  far : Tendsto f atTop (𝓝 0)

section
variable {f : ℝ → ℝ} {B : ℝ}

theorem Screened.nonneg (hf : Screened f B) : 0 ≤ B := by
  have := (abs_nonneg _).trans (hf.bound 1 3 one_pos (by norm_num))
  norm_num at this
  exact this

theorem Screened.pair_le (hf : Screened f B) {h z : ℝ} (hz : 0 < z) (hzh : z ≤ h) (n : ℕ) (hn : 1 ≤ n) :
    |pair f h z n| ≤ B * z / (h ^ 3 * (2 * n - 1) ^ 3) := by
  have hn' : (1 : ℝ) ≤ n := by exact_mod_cast hn
  have hh : 0 < h := hz.trans_le hzh
  have h0 : (2 * n - 1) * h ≤ 2 * n * h - z := by linarith
  have h1 : 0 < (2 * n - 1) * h := mul_pos (by linarith) hh
  have hB := hf.nonneg
  have := hf.bound (2 * n * h - z) (2 * n * h + z) (by linarith) (by linarith)
  refine this.trans ?_
  rw [show B * (2 * n * h + z - (2 * n * h - z)) / (2 * (2 * n * h - z) ^ 3) = B * z / (2 * n * h - z) ^ 3 by
    rw [show B * (2 * n * h + z - (2 * n * h - z)) = 2 * (B * z) by ring, mul_div_mul_left _ _ two_ne_zero],
    show h ^ 3 * (2 * n - 1 : ℝ) ^ 3 = ((2 * n - 1) * h) ^ 3 by ring]
  gcongr

theorem Screened.near (hf : Screened f B) {h z : ℝ} (hz : 0 < z) (hzh : z ≤ h) {N : ℕ} (hN : 1 ≤ N) (k : ℕ) :
    |∑ m ∈ Finset.Icc (-((N + k : ℕ) : ℤ)) (N + k : ℕ), f (z + 2 * m * h) - ∑ m ∈ Finset.Icc (-(N : ℤ)) N, f (z + 2 * m * h)|
      ≤ B * z / (16 * h ^ 3) * (1 / (N : ℝ) ^ 2 - 1 / ((N + k : ℕ) : ℝ) ^ 2) := by
  have hh : 0 < h := hz.trans_le hzh
  have hB := hf.nonneg
  induction k with
  | zero => simp
  | succ k ih =>
    rw [← add_assoc, images_succ hf.odd]
    have h1 := hf.pair_le hz hzh (N + k + 1) (by omega)
    have hM : (1 : ℝ) ≤ (N + k : ℕ) := by exact_mod_cast (by omega : 1 ≤ N + k)
    have h2 : B * z / (h ^ 3 * (2 * ((N + k + 1 : ℕ) : ℝ) - 1) ^ 3)
        ≤ B * z / (16 * h ^ 3) * (1 / ((N + k : ℕ) : ℝ) ^ 2 - 1 / ((N + k + 1 : ℕ) : ℝ) ^ 2) := by
      rw [Nat.cast_add_one]
      generalize ((N + k : ℕ) : ℝ) = M at hM
      have e : B * z / (h ^ 3 * (2 * (M + 1) - 1) ^ 3) = B * z / (16 * h ^ 3) * (16 / (2 * M + 1) ^ 3) := by
        rw [show 2 * (M + 1) - 1 = 2 * M + 1 by ring]
        have : 0 < 2 * M + 1 := by linarith
        field_simp
      rw [e]
      refine mul_le_mul_of_nonneg_left ?_ (by positivity)
      rw [div_sub_div _ _ (by positivity) (by positivity), div_le_div_iff₀ (by positivity) (by positivity)]
      have : (2 * M + 1) ^ 4 - 16 * (M ^ 2 * (M + 1) ^ 2) = 8 * M * (M + 1) + 1 := by ring
      nlinarith [mul_pos (show 0 < M by linarith) (show 0 < M + 1 by linarith)]
    calc _ = |(∑ m ∈ Finset.Icc (-((N + k : ℕ) : ℤ)) (N + k : ℕ), f (z + 2 * m * h) - ∑ m ∈ Finset.Icc (-(N : ℤ)) N, f (z + 2 * m * h))
          + pair f h z (N + k + 1)| := by congr 1; ring
      _ ≤ _ := (abs_add_le _ _).trans (add_le_add ih (h1.trans h2))
      _ = _ := by ring

theorem Screened.limit (hf : Screened f B) {h z : ℝ} (hz : 0 < z) (hzh : z ≤ h) :
    ∃ L, Tendsto (fun n : ℕ => ∑ m ∈ Finset.Icc (-(n : ℤ)) n, f (z + 2 * m * h)) atTop (𝓝 L) ∧
      (∀ n : ℕ, 1 ≤ n → |∑ m ∈ Finset.Icc (-(n : ℤ)) n, f (z + 2 * m * h) - L| ≤ B * z / (16 * h ^ 3 * n ^ 2)) ∧
      |f z - L| ≤ 17 * (B * z) / (16 * h ^ 3) := by
  have hh : 0 < h := hz.trans_le hzh
  have hB := hf.nonneg
  set u : ℕ → ℝ := fun n => ∑ m ∈ Finset.Icc (-(n : ℤ)) n, f (z + 2 * m * h) with hu
  have hC : 0 ≤ B * z / (16 * h ^ 3) := by positivity
  have cau : CauchySeq fun n : ℕ => u (n + 1) := by
    refine cauchySeq_of_le_tendsto_0' (fun n : ℕ => B * z / (16 * h ^ 3) * (1 / ((n : ℝ) + 1) ^ 2)) (fun n m hnm => ?_) ?_
    · obtain ⟨k, rfl⟩ := Nat.exists_eq_add_of_le hnm
      have := hf.near hz hzh (N := n + 1) (by omega) k
      rw [dist_comm, Real.dist_eq, show n + k + 1 = n + 1 + k by ring]
      refine this.trans (mul_le_mul_of_nonneg_left ?_ hC)
      push_cast
      have : 0 ≤ 1 / ((n : ℝ) + 1 + k) ^ 2 := by positivity
      linarith
    · have h1 := (tendsto_one_div_add_atTop_nhds_zero_nat (𝕜 := ℝ)).pow 2
      have h2 := h1.const_mul (B * z / (16 * h ^ 3))
      simpa using h2
  obtain ⟨L, hL⟩ := cauchySeq_tendsto_of_complete cau
  have hL' : Tendsto u atTop (𝓝 L) := (tendsto_add_atTop_iff_nat 1).1 hL
  have err : ∀ n : ℕ, 1 ≤ n → |u n - L| ≤ B * z / (16 * h ^ 3 * n ^ 2) := by
    intro n hn
    have h1 : Tendsto (fun k => |u (n + k) - u n|) atTop (𝓝 |L - u n|) := by
      have : Tendsto (fun k => u (n + k)) atTop (𝓝 L) := by
        simpa only [add_comm] using (tendsto_add_atTop_iff_nat n).2 hL'
      exact (this.sub_const _).abs
    rw [abs_sub_comm]
    refine le_of_tendsto h1 (Eventually.of_forall fun k => ?_)
    refine (hf.near hz hzh hn k).trans ?_
    rw [show B * z / (16 * h ^ 3 * n ^ 2) = B * z / (16 * h ^ 3) * (1 / (n : ℝ) ^ 2) by rw [div_mul_div_comm, mul_one]]
    refine mul_le_mul_of_nonneg_left ?_ hC
    have : 0 ≤ 1 / ((n + k : ℕ) : ℝ) ^ 2 := by positivity
    linarith
  refine ⟨L, hL', err, ?_⟩
  have h1 := err 1 le_rfl
  have h2 : u 1 = f z + pair f h z 1 := by
    have := images_succ hf.odd h z 0
    rw [images_zero] at this
    simpa [hu] using this
  have h3 := hf.pair_le hz hzh 1 le_rfl
  rw [h2] at h1
  have e : f z - L = (f z + pair f h z 1 - L) - pair f h z 1 := by ring
  rw [e]
  refine (abs_sub _ _).trans ((add_le_add h1 h3).trans_eq ?_)
  push_cast
  field_simp
  norm_num

/-- the images of a cover at `h` are those of a cover at `2 h` and of a mirrored one -/
theorem images_double (hf : ∀ x, f (-x) = -f x) (h z : ℝ) (n : ℕ) :
    ∑ m ∈ Finset.Icc (-((2 * n : ℕ) : ℤ)) (2 * n : ℕ), f (z + 2 * m * h)
      = ∑ m ∈ Finset.Icc (-(n : ℤ)) n, f (z + 2 * m * (2 * h)) - ∑ m ∈ Finset.Icc (-(n : ℤ)) n, f ((2 * h - z) + 2 * m * (2 * h))
        + f ((2 * h - z) + 2 * n * (2 * h)) := by
  induction n with
  | zero => simp
  | succ n ih =>
    rw [show 2 * (n + 1) = 2 * n + 1 + 1 by ring, images_succ hf, images_succ hf, ih, images_succ hf, images_succ hf]
    unfold pair
    push_cast
    have e1 : 2 * (2 * (n : ℝ) + 1) * h + z = 2 * (n + 1) * (2 * h) - (2 * h - z) := by ring
    have e2 : 2 * (2 * (n : ℝ) + 1) * h - z = 2 * h - z + 2 * n * (2 * h) := by ring
    have e3 : 2 * (2 * (n : ℝ) + 1 + 1) * h + z = 2 * (n + 1) * (2 * h) + z := by ring
    have e4 : 2 * (2 * (n : ℝ) + 1 + 1) * h - z = 2 * (n + 1) * (2 * h) - z := by ring
    have e5 : 2 * h - z + 2 * ((n : ℝ) + 1) * (2 * h) = 2 * (n + 1) * (2 * h) + (2 * h - z) := by ring
    rw [e1, e2, e3, e4, e5]
    ring

theorem Screened.double (hf : Screened f B) {h z L L' : ℝ} (hz : 0 < z) (hzh : z < h)
    (hL : Tendsto (fun n : ℕ => ∑ m ∈ Finset.Icc (-(n : ℤ)) n, f (z + 2 * m * h)) atTop (𝓝 L))
    (hL' : Tendsto (fun n : ℕ => ∑ m ∈ Finset.Icc (-(n : ℤ)) n, f (z + 2 * m * (2 * h))) atTop (𝓝 L')) : L < L' := by
  obtain ⟨c, hc, hfl⟩ := hf.floor (2 * h) (2 * h - z) (by linarith) (by linarith)
  have h1 : Tendsto (fun n : ℕ => 2 * n) atTop atTop := tendsto_atTop_mono (fun n => by simp only [id]; omega) tendsto_id
  have h2 := hL.comp h1
  have h3 : Tendsto (fun n : ℕ => f ((2 * h - z) + 2 * n * (2 * h))) atTop (𝓝 0) := by
    refine hf.far.comp (tendsto_atTop_add_const_left _ _ ?_)
    have : 0 < 2 * h := by linarith
    exact (tendsto_natCast_atTop_atTop.const_mul_atTop two_pos).atTop_mul_const this
  have h4 := (hL'.add h3).sub h2
  have h5 : c ≤ L' + 0 - L := by
    refine ge_of_tendsto h4 (Eventually.of_forall fun n => ?_)
    have := hfl n
    simp only [Function.comp]
    rw [images_double hf.odd]
    linarith
  linarith

/-- with all images, the potential is positive and smaller than without -/
theorem Screened.between (hf : Screened f B) {h z L : ℝ} (hz : 0 < z) (hzh : z < h)
    (hL : Tendsto (fun n : ℕ => ∑ m ∈ Finset.Icc (-(n : ℤ)) n, f (z + 2 * m * h)) atTop (𝓝 L)) : 0 < L ∧ L < f z := by
  have hh : 0 < h := hz.trans hzh
  constructor
  · obtain ⟨c, hc, hfl⟩ := hf.floor h z hz hzh
    exact hc.trans_le (ge_of_tendsto hL (Eventually.of_forall hfl))
  · have hle : ∀ k : ℕ, h ≤ 2 ^ (k + 1) * h := fun k => le_mul_of_one_le_left hh.le (one_le_pow₀ (by norm_num))
    choose M hM1 hM2 hM3 using fun k : ℕ => hf.limit (h := 2 ^ (k + 1) * h) hz (hzh.le.trans (hle k))
    have d0 : L < M 0 := by
      refine hf.double hz hzh hL ?_
      simpa using hM1 0
    have dk : ∀ k, M 0 ≤ M k := by
      intro k
      induction k with
      | zero => exact le_rfl
      | succ k ih =>
        refine ih.trans (hf.double hz (hzh.trans_le (hle k)) (hM1 k) ?_).le
        rw [← mul_assoc, ← pow_succ']
        exact hM1 (k + 1)
    have lim : Tendsto M atTop (𝓝 (f z)) := by
      rw [tendsto_iff_dist_tendsto_zero]
      have h1 : Tendsto (fun k : ℕ => 17 * (B * z) / (16 * (2 ^ (k + 1) * h) ^ 3)) atTop (𝓝 0) := by
        refine tendsto_const_nhds.div_atTop (Tendsto.const_mul_atTop (by norm_num) ?_)
        refine (tendsto_pow_atTop (by norm_num)).comp ?_
        exact ((tendsto_pow_atTop_atTop_of_one_lt (by norm_num : (1 : ℝ) < 2)).comp (tendsto_add_atTop_nat 1)).atTop_mul_const hh
      refine squeeze_zero (fun _ => dist_nonneg) (fun k => ?_) h1
      rw [dist_comm, Real.dist_eq]
      exact hM3 k
    exact d0.trans_le (ge_of_tendsto lim (Eventually.of_forall dk))

end

end Cover
end Electrode
