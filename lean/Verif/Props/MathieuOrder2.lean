import Verif.Props.MathieuOrder
set_option linter.unusedSimpArgs false
set_option linter.unnecessarySeqFocus false
open Real Electrode.Spec
namespace Electrode

theorem cos_four_mul (t : ℝ) : cos (4 * t) = 2 * cos (2 * t) ^ 2 - 1 := by
  rw [show 4 * t = 2 * (2 * t) by ring, cos_two_mul]

theorem sin_four_mul (t : ℝ) : sin (4 * t) = 2 * sin (2 * t) * cos (2 * t) := by
  rw [show 4 * t = 2 * (2 * t) by ring, sin_two_mul]

theorem cos_six_mul (t : ℝ) : cos (6 * t) = 4 * cos (2 * t) ^ 3 - 3 * cos (2 * t) := by
  rw [show 6 * t = 3 * (2 * t) by ring, cos_three_mul]

theorem cos_eight_mul (t : ℝ) : cos (8 * t) = 2 * (2 * cos (2 * t) ^ 2 - 1) ^ 2 - 1 := by
  rw [show 8 * t = 2 * (4 * t) by ring, cos_two_mul, cos_four_mul]

/-- a coefficient of the expansion -/
noncomputable def mw1 (t : ℝ) : ℝ := (1 / 2) + (-1 / 2) * cos (2 * t)

/-- its derivative -/
noncomputable def mv1 (t : ℝ) : ℝ := 1 * sin (2 * t)

theorem mw1_deriv (t : ℝ) : HasDerivAt mw1 (mv1 t) t := by
  unfold mw1 mv1
  exact ((hasDerivAt_const t ((1 / 2) : ℝ)).add ((deriv_cos_mul 2 t).const_mul ((-1 / 2) : ℝ))).congr_deriv (by norm_num <;> ring)

theorem mv1_deriv (t : ℝ) : HasDerivAt mv1 (2 * cos (2 * t)) t := by
  unfold mv1
  exact ((deriv_sin_mul 2 t).const_mul (1 : ℝ)).congr_deriv (by
    try simp only [cos_four_mul, sin_four_mul, cos_six_mul, cos_eight_mul]
    norm_num <;> ring)

theorem mw1_zero : mw1 0 = 0 ∧ mv1 0 = 0 := by
  unfold mw1 mv1
  constructor <;> norm_num

theorem mw1_pi : mw1 π = 0 := by
  unfold mw1
  try simp only [cos_four_mul, sin_four_mul, cos_six_mul, cos_eight_mul, cos_two_pi, sin_two_pi]
  ring

/-- a coefficient of the expansion -/
noncomputable def mw01 (t : ℝ) : ℝ := (-1 / 2) * t ^ 2

/-- its derivative -/
noncomputable def mv01 (t : ℝ) : ℝ := (-1) * t

theorem mw01_deriv (t : ℝ) : HasDerivAt mw01 (mv01 t) t := by
  unfold mw01 mv01
  exact ((hasDerivAt_pow 2 t).const_mul ((-1 / 2) : ℝ)).congr_deriv (by norm_num <;> ring)

theorem mv01_deriv (t : ℝ) : HasDerivAt mv01 (-1) t := by
  unfold mv01
  exact ((hasDerivAt_id' t).const_mul ((-1) : ℝ)).congr_deriv (by
    try simp only [cos_four_mul, sin_four_mul, cos_six_mul, cos_eight_mul]
    norm_num <;> ring)

theorem mw01_zero : mw01 0 = 0 ∧ mv01 0 = 0 := by
  unfold mw01 mv01
  constructor <;> norm_num

theorem mw01_pi : mw01 π = -(π ^ 2 / 2) := by
  unfold mw01
  try simp only [cos_four_mul, sin_four_mul, cos_six_mul, cos_eight_mul, cos_two_pi, sin_two_pi]
  ring

/-- a coefficient of the expansion -/
noncomputable def mw20 (t : ℝ) : ℝ := (7 / 32) + (-1 / 4) * cos (2 * t) + (1 / 32) * cos (4 * t) + (-1 / 4) * t ^ 2

/-- its derivative -/
noncomputable def mv20 (t : ℝ) : ℝ := (1 / 2) * sin (2 * t) + (-1 / 8) * sin (4 * t) + (-1 / 2) * t

theorem mw20_deriv (t : ℝ) : HasDerivAt mw20 (mv20 t) t := by
  unfold mw20 mv20
  exact ((((hasDerivAt_const t ((7 / 32) : ℝ)).add ((deriv_cos_mul 2 t).const_mul ((-1 / 4) : ℝ))).add ((deriv_cos_mul 4 t).const_mul ((1 / 32) : ℝ))).add ((hasDerivAt_pow 2 t).const_mul ((-1 / 4) : ℝ))).congr_deriv (by norm_num <;> ring)

theorem mv20_deriv (t : ℝ) : HasDerivAt mv20 (2 * cos (2 * t) * mw1 t) t := by
  unfold mv20
  exact ((((deriv_sin_mul 2 t).const_mul ((1 / 2) : ℝ)).add ((deriv_sin_mul 4 t).const_mul ((-1 / 8) : ℝ))).add ((hasDerivAt_id' t).const_mul ((-1 / 2) : ℝ))).congr_deriv (by
    unfold mw1
    try simp only [cos_four_mul, sin_four_mul, cos_six_mul, cos_eight_mul]
    norm_num <;> ring)

theorem mw20_zero : mw20 0 = 0 ∧ mv20 0 = 0 := by
  unfold mw20 mv20
  constructor <;> norm_num

theorem mw20_pi : mw20 π = -(π ^ 2 / 4) := by
  unfold mw20
  try simp only [cos_four_mul, sin_four_mul, cos_six_mul, cos_eight_mul, cos_two_pi, sin_two_pi]
  ring

/-- a coefficient of the expansion -/
noncomputable def mw11 (t : ℝ) : ℝ := (1 / 2) + (-1 / 2) * cos (2 * t) + (-1 / 2) * (t * sin (2 * t)) + (-1 / 4) * t ^ 2 + (1 / 4) * (t ^ 2 * cos (2 * t))

/-- its derivative -/
noncomputable def mv11 (t : ℝ) : ℝ := (1 / 2) * sin (2 * t) + (-1 / 2) * t + (-1 / 2) * (t * cos (2 * t)) + (-1 / 2) * (t ^ 2 * sin (2 * t))

theorem mw11_deriv (t : ℝ) : HasDerivAt mw11 (mv11 t) t := by
  unfold mw11 mv11
  exact (((((hasDerivAt_const t ((1 / 2) : ℝ)).add ((deriv_cos_mul 2 t).const_mul ((-1 / 2) : ℝ))).add (((hasDerivAt_id' t).mul (deriv_sin_mul 2 t)).const_mul ((-1 / 2) : ℝ))).add ((hasDerivAt_pow 2 t).const_mul ((-1 / 4) : ℝ))).add (((hasDerivAt_pow 2 t).mul (deriv_cos_mul 2 t)).const_mul ((1 / 4) : ℝ))).congr_deriv (by norm_num <;> ring)

theorem mv11_deriv (t : ℝ) : HasDerivAt mv11 (-mw1 t + 2 * cos (2 * t) * mw01 t) t := by
  unfold mv11
  exact (((((deriv_sin_mul 2 t).const_mul ((1 / 2) : ℝ)).add ((hasDerivAt_id' t).const_mul ((-1 / 2) : ℝ))).add (((hasDerivAt_id' t).mul (deriv_cos_mul 2 t)).const_mul ((-1 / 2) : ℝ))).add (((hasDerivAt_pow 2 t).mul (deriv_sin_mul 2 t)).const_mul ((-1 / 2) : ℝ))).congr_deriv (by
    unfold mw1 mw01
    try simp only [cos_four_mul, sin_four_mul, cos_six_mul, cos_eight_mul]
    norm_num <;> ring)

theorem mw11_zero : mw11 0 = 0 ∧ mv11 0 = 0 := by
  unfold mw11 mv11
  constructor <;> norm_num

theorem mw11_pi : mw11 π = 0 := by
  unfold mw11
  try simp only [cos_four_mul, sin_four_mul, cos_six_mul, cos_eight_mul, cos_two_pi, sin_two_pi]
  ring

/-- a coefficient of the expansion -/
noncomputable def mw30 (t : ℝ) : ℝ := (167 / 576) + (-39 / 128) * cos (2 * t) + (1 / 64) * cos (4 * t) + (-1 / 1152) * cos (6 * t) + (-1 / 4) * (t * sin (2 * t)) + (-1 / 8) * t ^ 2 + (1 / 8) * (t ^ 2 * cos (2 * t))

/-- its derivative -/
noncomputable def mv30 (t : ℝ) : ℝ := (23 / 64) * sin (2 * t) + (-1 / 16) * sin (4 * t) + (1 / 192) * sin (6 * t) + (-1 / 4) * t + (-1 / 4) * (t * cos (2 * t)) + (-1 / 4) * (t ^ 2 * sin (2 * t))

theorem mw30_deriv (t : ℝ) : HasDerivAt mw30 (mv30 t) t := by
  unfold mw30 mv30
  exact (((((((hasDerivAt_const t ((167 / 576) : ℝ)).add ((deriv_cos_mul 2 t).const_mul ((-39 / 128) : ℝ))).add ((deriv_cos_mul 4 t).const_mul ((1 / 64) : ℝ))).add ((deriv_cos_mul 6 t).const_mul ((-1 / 1152) : ℝ))).add (((hasDerivAt_id' t).mul (deriv_sin_mul 2 t)).const_mul ((-1 / 4) : ℝ))).add ((hasDerivAt_pow 2 t).const_mul ((-1 / 8) : ℝ))).add (((hasDerivAt_pow 2 t).mul (deriv_cos_mul 2 t)).const_mul ((1 / 8) : ℝ))).congr_deriv (by norm_num <;> ring)

theorem mv30_deriv (t : ℝ) : HasDerivAt mv30 (2 * cos (2 * t) * mw20 t) t := by
  unfold mv30
  exact (((((((deriv_sin_mul 2 t).const_mul ((23 / 64) : ℝ)).add ((deriv_sin_mul 4 t).const_mul ((-1 / 16) : ℝ))).add ((deriv_sin_mul 6 t).const_mul ((1 / 192) : ℝ))).add ((hasDerivAt_id' t).const_mul ((-1 / 4) : ℝ))).add (((hasDerivAt_id' t).mul (deriv_cos_mul 2 t)).const_mul ((-1 / 4) : ℝ))).add (((hasDerivAt_pow 2 t).mul (deriv_sin_mul 2 t)).const_mul ((-1 / 4) : ℝ))).congr_deriv (by
    unfold mw20
    try simp only [cos_four_mul, sin_four_mul, cos_six_mul, cos_eight_mul]
    norm_num <;> ring)

theorem mw30_zero : mw30 0 = 0 ∧ mv30 0 = 0 := by
  unfold mw30 mv30
  constructor <;> norm_num

theorem mw30_pi : mw30 π = 0 := by
  unfold mw30
  try simp only [cos_four_mul, sin_four_mul, cos_six_mul, cos_eight_mul, cos_two_pi, sin_two_pi]
  ring

/-- a coefficient of the expansion -/
noncomputable def mw02 (t : ℝ) : ℝ := (1 / 24) * t ^ 4

/-- its derivative -/
noncomputable def mv02 (t : ℝ) : ℝ := (1 / 6) * t ^ 3

theorem mw02_deriv (t : ℝ) : HasDerivAt mw02 (mv02 t) t := by
  unfold mw02 mv02
  exact ((hasDerivAt_pow 4 t).const_mul ((1 / 24) : ℝ)).congr_deriv (by norm_num <;> ring)

theorem mv02_deriv (t : ℝ) : HasDerivAt mv02 (-mw01 t) t := by
  unfold mv02
  exact ((hasDerivAt_pow 3 t).const_mul ((1 / 6) : ℝ)).congr_deriv (by
    unfold mw01
    try simp only [cos_four_mul, sin_four_mul, cos_six_mul, cos_eight_mul]
    norm_num <;> ring)

theorem mw02_zero : mw02 0 = 0 ∧ mv02 0 = 0 := by
  unfold mw02 mv02
  constructor <;> norm_num

theorem mw02_pi : mw02 π = π ^ 4 / 24 := by
  unfold mw02
  try simp only [cos_four_mul, sin_four_mul, cos_six_mul, cos_eight_mul, cos_two_pi, sin_two_pi]
  ring

/-- a coefficient of the expansion -/
noncomputable def mw21 (t : ℝ) : ℝ := (57 / 128) + (-1 / 2) * cos (2 * t) + (7 / 128) * cos (4 * t) + (-1 / 4) * (t * sin (2 * t)) + (3 / 64) * (t * sin (4 * t)) + (-23 / 64) * t ^ 2 + (1 / 8) * (t ^ 2 * cos (2 * t)) + (-1 / 64) * (t ^ 2 * cos (4 * t)) + (1 / 24) * t ^ 4

/-- its derivative -/
noncomputable def mv21 (t : ℝ) : ℝ := (3 / 4) * sin (2 * t) + (-11 / 64) * sin (4 * t) + (-23 / 32) * t + (-1 / 4) * (t * cos (2 * t)) + (5 / 32) * (t * cos (4 * t)) + (-1 / 4) * (t ^ 2 * sin (2 * t)) + (1 / 16) * (t ^ 2 * sin (4 * t)) + (1 / 6) * t ^ 3

theorem mw21_deriv (t : ℝ) : HasDerivAt mw21 (mv21 t) t := by
  unfold mw21 mv21
  exact (((((((((hasDerivAt_const t ((57 / 128) : ℝ)).add ((deriv_cos_mul 2 t).const_mul ((-1 / 2) : ℝ))).add ((deriv_cos_mul 4 t).const_mul ((7 / 128) : ℝ))).add (((hasDerivAt_id' t).mul (deriv_sin_mul 2 t)).const_mul ((-1 / 4) : ℝ))).add (((hasDerivAt_id' t).mul (deriv_sin_mul 4 t)).const_mul ((3 / 64) : ℝ))).add ((hasDerivAt_pow 2 t).const_mul ((-23 / 64) : ℝ))).add (((hasDerivAt_pow 2 t).mul (deriv_cos_mul 2 t)).const_mul ((1 / 8) : ℝ))).add (((hasDerivAt_pow 2 t).mul (deriv_cos_mul 4 t)).const_mul ((-1 / 64) : ℝ))).add ((hasDerivAt_pow 4 t).const_mul ((1 / 24) : ℝ))).congr_deriv (by norm_num <;> ring)

theorem mv21_deriv (t : ℝ) : HasDerivAt mv21 (-mw20 t + 2 * cos (2 * t) * mw11 t) t := by
  unfold mv21
  exact (((((((((deriv_sin_mul 2 t).const_mul ((3 / 4) : ℝ)).add ((deriv_sin_mul 4 t).const_mul ((-11 / 64) : ℝ))).add ((hasDerivAt_id' t).const_mul ((-23 / 32) : ℝ))).add (((hasDerivAt_id' t).mul (deriv_cos_mul 2 t)).const_mul ((-1 / 4) : ℝ))).add (((hasDerivAt_id' t).mul (deriv_cos_mul 4 t)).const_mul ((5 / 32) : ℝ))).add (((hasDerivAt_pow 2 t).mul (deriv_sin_mul 2 t)).const_mul ((-1 / 4) : ℝ))).add (((hasDerivAt_pow 2 t).mul (deriv_sin_mul 4 t)).const_mul ((1 / 16) : ℝ))).add ((hasDerivAt_pow 3 t).const_mul ((1 / 6) : ℝ))).congr_deriv (by
    unfold mw20 mw11
    try simp only [cos_four_mul, sin_four_mul, cos_six_mul, cos_eight_mul]
    norm_num <;> ring)

theorem mw21_zero : mw21 0 = 0 ∧ mv21 0 = 0 := by
  unfold mw21 mv21
  constructor <;> norm_num

theorem mw21_pi : mw21 π = -(π ^ 2 / 4) * (1 - π ^ 2 / 6) := by
  unfold mw21
  try simp only [cos_four_mul, sin_four_mul, cos_six_mul, cos_eight_mul, cos_two_pi, sin_two_pi]
  ring

/-- a coefficient of the expansion -/
noncomputable def mw40 (t : ℝ) : ℝ := (15719 / 73728) + (-559 / 2304) * cos (2 * t) + (275 / 9216) * cos (4 * t) + (-1 / 2304) * cos (6 * t) + (1 / 73728) * cos (8 * t) + (-1 / 8) * (t * sin (2 * t)) + (3 / 128) * (t * sin (4 * t)) + (-39 / 256) * t ^ 2 + (1 / 16) * (t ^ 2 * cos (2 * t)) + (-1 / 128) * (t ^ 2 * cos (4 * t)) + (1 / 96) * t ^ 4

/-- its derivative -/
noncomputable def mv40 (t : ℝ) : ℝ := (415 / 1152) * sin (2 * t) + (-221 / 2304) * sin (4 * t) + (1 / 384) * sin (6 * t) + (-1 / 9216) * sin (8 * t) + (-39 / 128) * t + (-1 / 8) * (t * cos (2 * t)) + (5 / 64) * (t * cos (4 * t)) + (-1 / 8) * (t ^ 2 * sin (2 * t)) + (1 / 32) * (t ^ 2 * sin (4 * t)) + (1 / 24) * t ^ 3

theorem mw40_deriv (t : ℝ) : HasDerivAt mw40 (mv40 t) t := by
  unfold mw40 mv40
  exact (((((((((((hasDerivAt_const t ((15719 / 73728) : ℝ)).add ((deriv_cos_mul 2 t).const_mul ((-559 / 2304) : ℝ))).add ((deriv_cos_mul 4 t).const_mul ((275 / 9216) : ℝ))).add ((deriv_cos_mul 6 t).const_mul ((-1 / 2304) : ℝ))).add ((deriv_cos_mul 8 t).const_mul ((1 / 73728) : ℝ))).add (((hasDerivAt_id' t).mul (deriv_sin_mul 2 t)).const_mul ((-1 / 8) : ℝ))).add (((hasDerivAt_id' t).mul (deriv_sin_mul 4 t)).const_mul ((3 / 128) : ℝ))).add ((hasDerivAt_pow 2 t).const_mul ((-39 / 256) : ℝ))).add (((hasDerivAt_pow 2 t).mul (deriv_cos_mul 2 t)).const_mul ((1 / 16) : ℝ))).add (((hasDerivAt_pow 2 t).mul (deriv_cos_mul 4 t)).const_mul ((-1 / 128) : ℝ))).add ((hasDerivAt_pow 4 t).const_mul ((1 / 96) : ℝ))).congr_deriv (by norm_num <;> ring)

theorem mv40_deriv (t : ℝ) : HasDerivAt mv40 (2 * cos (2 * t) * mw30 t) t := by
  unfold mv40
  exact (((((((((((deriv_sin_mul 2 t).const_mul ((415 / 1152) : ℝ)).add ((deriv_sin_mul 4 t).const_mul ((-221 / 2304) : ℝ))).add ((deriv_sin_mul 6 t).const_mul ((1 / 384) : ℝ))).add ((deriv_sin_mul 8 t).const_mul ((-1 / 9216) : ℝ))).add ((hasDerivAt_id' t).const_mul ((-39 / 128) : ℝ))).add (((hasDerivAt_id' t).mul (deriv_cos_mul 2 t)).const_mul ((-1 / 8) : ℝ))).add (((hasDerivAt_id' t).mul (deriv_cos_mul 4 t)).const_mul ((5 / 64) : ℝ))).add (((hasDerivAt_pow 2 t).mul (deriv_sin_mul 2 t)).const_mul ((-1 / 8) : ℝ))).add (((hasDerivAt_pow 2 t).mul (deriv_sin_mul 4 t)).const_mul ((1 / 32) : ℝ))).add ((hasDerivAt_pow 3 t).const_mul ((1 / 24) : ℝ))).congr_deriv (by
    unfold mw30
    try simp only [cos_four_mul, sin_four_mul, cos_six_mul, cos_eight_mul]
    norm_num <;> ring)

theorem mw40_zero : mw40 0 = 0 ∧ mv40 0 = 0 := by
  unfold mw40 mv40
  constructor <;> norm_num

theorem mw40_pi : mw40 π = π ^ 4 / 96 - 25 * π ^ 2 / 256 := by
  unfold mw40
  try simp only [cos_four_mul, sin_four_mul, cos_six_mul, cos_eight_mul, cos_two_pi, sin_two_pi]
  ring

/-- the value after a period to fourth order, if `a` is at most of the order of `q²` -/
theorem value_fourth : ∃ C : ℝ, 0 ≤ C ∧ ∀ a q : ℝ, |a| ≤ q ^ 2 → |q| ≤ 1 → ∀ y y', SolvesMathieu a q y y' → y 0 = 1 → y' 0 = 0 →
    |y π - (1 - a * π ^ 2 / 2 + a ^ 2 * π ^ 4 / 24 - q ^ 2 * π ^ 2 / 4 * (1 + a * (1 - π ^ 2 / 6)) + q ^ 4 * (π ^ 4 / 96 - 25 * π ^ 2 / 256))|
      ≤ C * |q| ^ 5 := by
  have hcont : Continuous fun t => |mw30 t| + |mw11 t| + |mw40 t| + |mw21 t| + |mw02 t| := by
    have c1 : Continuous mw30 := continuous_iff_continuousAt.2 fun t => (mw30_deriv t).continuousAt
    have c2 : Continuous mw11 := continuous_iff_continuousAt.2 fun t => (mw11_deriv t).continuousAt
    have c3 : Continuous mw40 := continuous_iff_continuousAt.2 fun t => (mw40_deriv t).continuousAt
    have c4 : Continuous mw21 := continuous_iff_continuousAt.2 fun t => (mw21_deriv t).continuousAt
    have c5 : Continuous mw02 := continuous_iff_continuousAt.2 fun t => (mw02_deriv t).continuousAt
    fun_prop
  obtain ⟨K, hK⟩ := isCompact_Icc.exists_bound_of_continuousOn (s := Set.Icc 0 π) hcont.continuousOn
  have hKt : ∀ t ∈ Set.Icc 0 π, |mw30 t| ≤ K ∧ |mw11 t| ≤ K ∧ |mw40 t| ≤ K ∧ |mw21 t| ≤ K ∧ |mw02 t| ≤ K := by
    intro t ht
    have h := (le_abs_self _).trans (hK t ht)
    have h1 := abs_nonneg (mw30 t)
    have h2 := abs_nonneg (mw11 t)
    have h3 := abs_nonneg (mw40 t)
    have h4 := abs_nonneg (mw21 t)
    have h5 := abs_nonneg (mw02 t)
    exact ⟨by linarith, by linarith, by linarith, by linarith, by linarith⟩
  have hK0 : 0 ≤ K := (abs_nonneg _).trans (hKt 0 ⟨le_rfl, pi_pos.le⟩).1
  refine ⟨11 * K * exp ((3 + 1) * π), by positivity, fun a q ha hq y y' hy hi hi' => ?_⟩
  have q0 := abs_nonneg q
  have ha' : |a| ≤ |q| ^ 2 := by rwa [sq_abs]
  have hq2 : |q| ^ 2 ≤ 1 := pow_le_one₀ q0 hq
  have := mathieu_near (A := 1) (ε := 11 * K * |q| ^ 5)
    (z := fun t => 1 + q * mw1 t + q ^ 2 * mw20 t + a * mw01 t + q ^ 3 * mw30 t + q * a * mw11 t + q ^ 4 * mw40 t + q ^ 2 * a * mw21 t + a ^ 2 * mw02 t)
    (z' := fun t => q * mv1 t + q ^ 2 * mv20 t + a * mv01 t + q ^ 3 * mv30 t + q * a * mv11 t + q ^ 4 * mv40 t + q ^ 2 * a * mv21 t + a ^ 2 * mv02 t)
    (e := fun t => a * (q ^ 3 * mw30 t + q * a * mw11 t) + (a - 2 * q * cos (2 * t)) * (q ^ 4 * mw40 t + q ^ 2 * a * mw21 t + a ^ 2 * mw02 t)) hy
    (fun t => ⟨?_, ?_⟩) (by simp [hi, mw1_zero, mw20_zero, mw01_zero, mw30_zero, mw11_zero, mw40_zero, mw21_zero, mw02_zero])
    (by simp [hi', mw1_zero, mw20_zero, mw01_zero, mw30_zero, mw11_zero, mw40_zero, mw21_zero, mw02_zero]) ?_ (ha'.trans hq2) hq
  · simp only [mw1_pi, mw20_pi, mw01_pi, mw30_pi, mw11_pi, mw40_pi, mw21_pi, mw02_pi] at this
    rw [show 11 * K * exp ((3 + 1) * π) * |q| ^ 5 = 11 * K * |q| ^ 5 * exp ((3 + 1) * π) by ring]
    refine le_trans (le_of_eq ?_) this
    congr 1
    ring
  · exact (((((((((mw1_deriv t).const_mul q).const_add 1).add ((mw20_deriv t).const_mul (q ^ 2))).add ((mw01_deriv t).const_mul a)).add
      ((mw30_deriv t).const_mul (q ^ 3))).add ((mw11_deriv t).const_mul (q * a))).add ((mw40_deriv t).const_mul (q ^ 4))).add
      ((mw21_deriv t).const_mul (q ^ 2 * a))).add ((mw02_deriv t).const_mul (a ^ 2))
  · exact ((((((((mv1_deriv t).const_mul q).add ((mv20_deriv t).const_mul (q ^ 2))).add ((mv01_deriv t).const_mul a)).add
      ((mv30_deriv t).const_mul (q ^ 3))).add ((mv11_deriv t).const_mul (q * a))).add ((mv40_deriv t).const_mul (q ^ 4))).add
      ((mv21_deriv t).const_mul (q ^ 2 * a))).add ((mv02_deriv t).const_mul (a ^ 2)) |>.congr_deriv (by ring)
  · intro t ht
    obtain ⟨h1, h2, h3, h4, h5⟩ := hKt t ht
    have p2 : |q ^ 2| ≤ |q| ^ 2 := (abs_pow q 2).le
    have p3 : |q ^ 3| ≤ |q| ^ 3 := (abs_pow q 3).le
    have p4 : |q ^ 4| ≤ |q| ^ 4 := (abs_pow q 4).le
    have p5 : |q * a| ≤ |q| * |q| ^ 2 := abs_mul_sq_le le_rfl ha'
    have p6 : |q ^ 2 * a| ≤ |q| ^ 2 * |q| ^ 2 := abs_mul_sq_le p2 ha'
    have p7 : |a ^ 2| ≤ |q| ^ 2 * |q| ^ 2 := by rw [sq a]; exact abs_mul_sq_le ha' ha'
    have b1 := (abs_add_le _ _).trans (add_le_add (abs_mul_sq_le p3 h1) (abs_mul_sq_le p5 h2))
    have b2 := (abs_add_le _ _).trans (add_le_add ((abs_add_le _ _).trans (add_le_add (abs_mul_sq_le p4 h3) (abs_mul_sq_le p6 h4))) (abs_mul_sq_le p7 h5))
    have b3 : |a - 2 * q * cos (2 * t)| ≤ 3 * |q| := by
      refine (abs_sub _ _).trans ?_
      have : |2 * q * cos (2 * t)| ≤ 2 * |q| * 1 := by
        refine abs_mul_sq_le ?_ (abs_cos_le_one _)
        rw [abs_mul, abs_two]
      nlinarith
    refine (abs_add_le _ _).trans ((add_le_add (abs_mul_sq_le ha' b1) (abs_mul_sq_le b3 b2)).trans (le_of_eq ?_))
    ring

theorem sin_near {v : ℝ} (h0 : 0 < v) (h1 : v ≤ 1) : |sin v - (v - v ^ 3 / 6)| ≤ v ^ 4 * (5 / 96) := by
  have hb := sin_bound (x := v) (by rwa [abs_of_pos h0])
  rw [abs_of_pos h0] at hb
  have h4 : 0 < v ^ 4 := by positivity
  have h5 : v ^ 4 * v ≤ v ^ 4 * 1 := mul_le_mul_of_nonneg_left h1 h4.le
  have h6 : v ^ 5 = v ^ 4 * v := by ring
  linarith

/-- the approximation in the code, for a number `x` for the square root of `a`, to fourth order -/
theorem d0ap_fourth {x q : ℝ} (hx : 0 < x) (hxq : x ^ 2 ≤ q ^ 2) (hq : |q| ≤ 1 / 4) :
    |cos (π * x) + π * q ^ 2 / (4 * x * (x ^ 2 - 1)) * sin (π * x) + q ^ 4 * (π ^ 4 / 96 - 25 * π ^ 2 / 256) -
      (1 - x ^ 2 * π ^ 2 / 2 + (x ^ 2) ^ 2 * π ^ 4 / 24 - q ^ 2 * π ^ 2 / 4 * (1 + x ^ 2 * (1 - π ^ 2 / 6)) + q ^ 4 * (π ^ 4 / 96 - 25 * π ^ 2 / 256))|
      ≤ 100 * |q| ^ 5 := by
  have hp := pi_pos
  have hp3 := pi_gt_three
  have hp4 := pi_lt_d2
  have q0 := abs_nonneg q
  have hx1 : x ≤ |q| := by
    have := sq_le_sq.1 hxq
    rwa [abs_of_pos hx] at this
  have hx4 : x ≤ 1 / 4 := hx1.trans hq
  have hu0 : 0 < π * x := by positivity
  have hu1 : π * x ≤ 4 / 5 := by nlinarith
  have hu2 : π * x ≤ 3.15 * x := mul_le_mul_of_nonneg_right hp4.le hx.le
  have hq5 : x ^ 5 ≤ |q| ^ 5 := pow_le_pow_left₀ hx.le hx1 5
  have hq3 : x ^ 3 ≤ |q| ^ 3 := pow_le_pow_left₀ hx.le hx1 3
  -- the cosine
  have hc : |cos (π * x) - (1 - (π * x) ^ 2 / 2 + (π * x) ^ 4 / 24)| ≤ 32 * x ^ 5 := by
    obtain ⟨v, hv⟩ : ∃ v, v = π * x / 2 := ⟨_, rfl⟩
    have hv0 : 0 < v := by rw [hv]; positivity
    have hv1 : v ≤ 2 / 5 := by rw [hv]; linarith
    have hvx : v ≤ 1.575 * x := by rw [hv]; linarith
    have hb := sin_near hv0 (by linarith)
    obtain ⟨r, hr⟩ : ∃ r, r = sin v - (v - v ^ 3 / 6) := ⟨_, rfl⟩
    rw [← hr] at hb
    have hs : sin v = v - v ^ 3 / 6 + r := by rw [hr]; ring
    have e : π * x = 2 * v := by rw [hv]; ring
    have hcos : cos (π * x) = 1 - 2 * sin v ^ 2 := by rw [e, cos_two_mul, cos_sq']; ring
    rw [hcos, hs, e]
    have e2 : 1 - 2 * (v - v ^ 3 / 6 + r) ^ 2 - (1 - (2 * v) ^ 2 / 2 + (2 * v) ^ 4 / 24) = -(v ^ 5 * (v / 18) + r * (4 * (v - v ^ 3 / 6) + 2 * r)) := by ring
    rw [e2, abs_neg]
    have hv4 : v ^ 4 ≤ v := by
      have : v ^ 3 ≤ 1 := pow_le_one₀ hv0.le (by linarith)
      calc v ^ 4 = v * v ^ 3 := by ring
        _ ≤ v * 1 := mul_le_mul_of_nonneg_left this hv0.le
        _ = v := mul_one v
    have hr1 : |r| ≤ v := by linarith
    have h3 : 0 ≤ v ^ 3 := by positivity
    have h5 : 0 ≤ v ^ 5 := by positivity
    have hv3 : v ^ 3 ≤ v := by
      have : v ^ 2 ≤ 1 := pow_le_one₀ hv0.le (by linarith)
      calc v ^ 3 = v * v ^ 2 := by ring
        _ ≤ v * 1 := mul_le_mul_of_nonneg_left this hv0.le
        _ = v := mul_one v
    have h6 : |4 * (v - v ^ 3 / 6) + 2 * r| ≤ 6 * v := by
      have := abs_le.1 hr1
      rw [abs_le]
      constructor <;> linarith
    have h7 : |r * (4 * (v - v ^ 3 / 6) + 2 * r)| ≤ v ^ 4 * (5 / 96) * (6 * v) := abs_mul_sq_le hb h6
    have h8 : |v ^ 5 * (v / 18)| ≤ v ^ 5 * 1 := by
      refine abs_mul_sq_le (abs_of_nonneg h5).le ?_
      rw [abs_of_pos (by positivity)]
      linarith
    have h9 : v ^ 5 ≤ (1.575 * x) ^ 5 := pow_le_pow_left₀ hv0.le hvx 5
    have h10 : (1.575 * x) ^ 5 ≤ 10 * x ^ 5 := by
      rw [mul_pow]
      exact mul_le_mul_of_nonneg_right (by norm_num) (by positivity)
    refine (abs_add_le _ _).trans ?_
    have h11 : v ^ 4 * (5 / 96) * (6 * v) = 5 / 16 * v ^ 5 := by ring
    linarith
  -- the sine
  have hsn := sin_near hu0 (by linarith)
  obtain ⟨r, hr⟩ : ∃ r, r = sin (π * x) - (π * x - (π * x) ^ 3 / 6) := ⟨_, rfl⟩
  rw [← hr] at hsn
  have hs : sin (π * x) = π * x - (π * x) ^ 3 / 6 + r := by rw [hr]; ring
  have hx2 : x ^ 2 ≤ 1 / 16 := by nlinarith
  have hd : 0 < 1 - x ^ 2 := by linarith
  have hd' : x ^ 2 - 1 ≠ 0 := by linarith
  have e : π * q ^ 2 / (4 * x * (x ^ 2 - 1)) * sin (π * x) - -(q ^ 2 * π ^ 2 / 4 * (1 + x ^ 2 * (1 - π ^ 2 / 6))) =
      -(q ^ 2 * (π ^ 2 / 4 * (x ^ 4 * (1 - π ^ 2 / 6)) + π / 4 * (r / x)) / (1 - x ^ 2)) := by
    rw [hs]
    have hd3 : 1 - x ^ 2 ≠ 0 := hd.ne'
    rw [eq_comm, show 4 * x * (x ^ 2 - 1) = -(4 * x * (1 - x ^ 2)) by ring]
    field_simp
    ring
  have hp2 : π ^ 2 ≤ 10 := by nlinarith
  have hp20 : 9 ≤ π ^ 2 := by nlinarith
  have hx3 : 0 < x ^ 3 := by positivity
  have h1 : |π ^ 2 / 4 * (x ^ 4 * (1 - π ^ 2 / 6))| ≤ 5 / 2 * (x ^ 3 * 1) := by
    refine abs_mul_sq_le ?_ ?_
    · rw [abs_of_pos (by positivity)]
      linarith
    · rw [show x ^ 4 * (1 - π ^ 2 / 6) = x ^ 3 * (x * (1 - π ^ 2 / 6)) by ring]
      refine abs_mul_sq_le (abs_of_pos hx3).le ?_
      rw [abs_le]
      constructor <;> nlinarith
  have h2 : |π / 4 * (r / x)| ≤ 1 * (10 * x ^ 3) := by
    refine abs_mul_sq_le ?_ ?_
    · rw [abs_of_pos (by positivity)]
      linarith
    · rw [abs_div, abs_of_pos hx, div_le_iff₀ hx]
      have : (π * x) ^ 4 = (π ^ 2) ^ 2 * x ^ 4 := by ring
      have h4 : (π ^ 2) ^ 2 ≤ 100 := by nlinarith
      have h5 : (π ^ 2) ^ 2 * x ^ 4 ≤ 100 * x ^ 4 := mul_le_mul_of_nonneg_right h4 (by positivity)
      have h6 : 0 < x ^ 4 := by positivity
      calc _ ≤ _ := hsn
        _ ≤ 10 * x ^ 4 := by rw [this]; linarith
        _ = _ := by ring
  have h3 : |π * q ^ 2 / (4 * x * (x ^ 2 - 1)) * sin (π * x) - -(q ^ 2 * π ^ 2 / 4 * (1 + x ^ 2 * (1 - π ^ 2 / 6)))| ≤ 15 * |q| ^ 5 := by
    rw [e, abs_neg, abs_div, abs_of_pos hd, div_le_iff₀ hd]
    have h4 := abs_mul_sq_le (abs_pow q 2).le ((abs_add_le _ _).trans (add_le_add h1 h2))
    refine h4.trans ?_
    have h5 : |q| ^ 2 * (5 / 2 * (x ^ 3 * 1) + 1 * (10 * x ^ 3)) = 25 / 2 * (|q| ^ 2 * x ^ 3) := by ring
    have h6 : |q| ^ 2 * x ^ 3 ≤ |q| ^ 2 * |q| ^ 3 := mul_le_mul_of_nonneg_left hq3 (by positivity)
    have h7 : |q| ^ 2 * |q| ^ 3 = |q| ^ 5 := by ring
    have h8 : 0 ≤ |q| ^ 5 := by positivity
    rw [h5]
    have h9 : |q| ^ 5 * (15 / 16) ≤ |q| ^ 5 * (1 - x ^ 2) := mul_le_mul_of_nonneg_left (by linarith) h8
    linarith
  have hsum := abs_add_le (cos (π * x) - (1 - (π * x) ^ 2 / 2 + (π * x) ^ 4 / 24))
    (π * q ^ 2 / (4 * x * (x ^ 2 - 1)) * sin (π * x) - -(q ^ 2 * π ^ 2 / 4 * (1 + x ^ 2 * (1 - π ^ 2 / 6))))
  refine le_trans (le_of_eq ?_) (hsum.trans ?_)
  · congr 1
    ring
  · have h8 : 0 ≤ |q| ^ 5 := by positivity
    linarith

theorem fourth_range {b s p : ℝ} (hb0 : 0 < b) (hbs : b ≤ s) (hs1 : s ≤ 1 / 10000) (hp20 : 9 ≤ p) (hp2 : p ≤ 10) :
    1 - 8 * s ≤ 1 - b * p / 2 + b ^ 2 * p ^ 2 / 24 - s * p / 4 * (1 + b * (1 - p / 6)) + s * s * (p ^ 2 / 96 - 25 * p / 256) ∧
    1 - b * p / 2 + b ^ 2 * p ^ 2 / 24 - s * p / 4 * (1 + b * (1 - p / 6)) + s * s * (p ^ 2 / 96 - 25 * p / 256) ≤ 1 - 2 * s := by
  have hs0 : 0 < s := hb0.trans_le hbs
  have t1 : 0 ≤ b ^ 2 * p ^ 2 / 24 ∧ b ^ 2 * p ^ 2 / 24 ≤ s / 100 := by
    refine ⟨by positivity, ?_⟩
    have h1 : b ^ 2 ≤ s / 10000 := by
      have := mul_le_mul hbs (hbs.trans hs1) hb0.le hs0.le
      rw [sq]
      linarith
    have h2 : p ^ 2 ≤ 100 := by
      have := mul_le_mul hp2 hp2 (by linarith) (by norm_num)
      rw [sq]
      linarith
    have := mul_le_mul h1 h2 (by positivity) (by positivity)
    linarith
  have t2 : |s * p / 4 * (b * (1 - p / 6))| ≤ 1 / 3600 * (s * 1) := by
    refine abs_mul_sq_le ?_ (abs_mul_sq_le (by rwa [abs_of_pos hb0]) ?_)
    · rw [abs_of_pos (by positivity)]
      have := mul_le_mul hs1 hp2 (by linarith) (by norm_num)
      linarith
    · rw [abs_le]
      constructor <;> linarith
  have t3 : |s * s * (p ^ 2 / 96 - 25 * p / 256)| ≤ s * (1 / 10000) * 2 := by
    refine abs_mul_sq_le ?_ ?_
    · rw [abs_of_pos (by positivity)]
      exact mul_le_mul_of_nonneg_left hs1 hs0.le
    · have := mul_le_mul hp2 hp2 (by linarith) (by norm_num)
      have := mul_le_mul hp20 hp20 (by norm_num) (by linarith)
      rw [abs_le, sq]
      constructor <;> linarith
  have t2' := abs_le.1 t2
  have t3' := abs_le.1 t3
  have t4 : 9 * b ≤ b * p ∧ b * p ≤ 10 * s := ⟨by rw [mul_comm]; exact mul_le_mul_of_nonneg_left hp20 hb0.le, by rw [mul_comm]; exact mul_le_mul hp2 hbs hb0.le (by norm_num)⟩
  have t5 : 9 * s ≤ s * p ∧ s * p ≤ 10 * s := ⟨by rw [mul_comm]; exact mul_le_mul_of_nonneg_left hp20 hs0.le, by rw [mul_comm]; exact mul_le_mul_of_nonneg_right hp2 hs0.le⟩
  have hZ2 : 1 - b * p / 2 + b ^ 2 * p ^ 2 / 24 - s * p / 4 * (1 + b * (1 - p / 6)) + s * s * (p ^ 2 / 96 - 25 * p / 256) =
      1 - b * p / 2 + b ^ 2 * p ^ 2 / 24 - s * p / 4 - s * p / 4 * (b * (1 - p / 6)) + s * s * (p ^ 2 / 96 - 25 * p / 256) := by ring
  rw [hZ2]
  exact ⟨by linarith [t1.1, t2'.2, t3'.1, t4.2, t5.2], by linarith [t1.2, t2'.1, t3'.2, t4.1, t5.1]⟩

/-- **C113**: for `0 < a ≤ q²` and small `q`, which is where traps are operated, the number from `nu_exp_d0ap` differs from the
characteristic exponent, itself of first order in `q`, only by a term of fourth order. -/
theorem c113_d0ap_small : ∃ C δ : ℝ, 0 < δ ∧ ∀ a q : ℝ, 0 < a → a ≤ q ^ 2 → |q| < δ → ∀ y y', SolvesMathieu a q y y' → y 0 = 1 → y' 0 = 0 →
    ∃ nu nu', nuExpD0ap a q = some nu ∧ nuExpIvp (y π) = .bounded nu' ∧ |nu - nu'| ≤ C * |q| ^ 4 := by
  obtain ⟨B, hB0, hv⟩ := value_fourth
  refine ⟨2 * (B + 100), 1 / (B + 100), by positivity, fun a q ha haq hq y y' hy hi hi' => ?_⟩
  have q0 := abs_nonneg q
  rw [lt_div_iff₀ (by positivity)] at hq
  have hq3 : |q| < 1 / 100 := by
    rw [lt_div_iff₀ (by norm_num)]
    nlinarith
  obtain ⟨x, hx, rfl⟩ : ∃ x : ℝ, 0 < x ∧ a = x ^ 2 := ⟨√a, sqrt_pos.2 ha, (sq_sqrt ha.le).symm⟩
  have hv := hv (x ^ 2) q (by rwa [abs_of_pos ha]) (by linarith) y y' hy hi hi'
  have hf := d0ap_fourth hx haq (by linarith)
  obtain ⟨F, hF⟩ : ∃ F, F = cos (π * x) + π * q ^ 2 / (4 * x * (x ^ 2 - 1)) * sin (π * x) + q ^ 4 * (π ^ 4 / 96 - 25 * π ^ 2 / 256) := ⟨_, rfl⟩
  obtain ⟨Z, hZ⟩ : ∃ Z, Z = 1 - x ^ 2 * π ^ 2 / 2 + (x ^ 2) ^ 2 * π ^ 4 / 24 - q ^ 2 * π ^ 2 / 4 * (1 + x ^ 2 * (1 - π ^ 2 / 6)) +
    q ^ 4 * (π ^ 4 / 96 - 25 * π ^ 2 / 256) := ⟨_, rfl⟩
  rw [← hZ] at hv hf
  rw [← hF] at hf
  have hp := pi_pos
  have hp3 := pi_gt_three
  have hp4 := pi_lt_d2
  have hp2 : π ^ 2 ≤ 10 := by nlinarith
  have hp20 : 9 ≤ π ^ 2 := by nlinarith
  obtain ⟨p, hpe⟩ : ∃ p, p = π ^ 2 := ⟨_, rfl⟩
  have hq2 : q ^ 2 = |q| ^ 2 := (sq_abs q).symm
  have hq4 : q ^ 4 = |q| ^ 2 * |q| ^ 2 := by rw [← hq2]; ring
  have hqpos : 0 < |q| := by
    rcases q0.eq_or_lt with h | h
    · rw [hq2, ← h] at haq
      nlinarith
    · exact h
  obtain ⟨s, hs⟩ : ∃ s, s = |q| ^ 2 := ⟨_, rfl⟩
  have hs0 : 0 < s := by rw [hs]; positivity
  have hs1 : s ≤ 1 / 10000 := by rw [hs]; nlinarith
  obtain ⟨b, hb⟩ : ∃ b, b = x ^ 2 := ⟨_, rfl⟩
  have hZ' : Z = 1 - b * p / 2 + b ^ 2 * p ^ 2 / 24 - s * p / 4 * (1 + b * (1 - p / 6)) + s * s * (p ^ 2 / 96 - 25 * p / 256) := by
    rw [hZ, hq4, hq2, hb, hpe, hs]
    ring
  have hb0 : 0 < b := hb ▸ ha
  have hbs : b ≤ s := by rw [hb, hs, ← hq2]; exact haq
  rw [← hpe] at hp2 hp20
  obtain ⟨hZl, hZu⟩ := fourth_range hb0 hbs hs1 hp20 hp2
  rw [← hZ'] at hZl hZu
  have hcube : (B + 100) * |q| ^ 5 ≤ s := by
    have h1 : (B + 100) * |q| ^ 5 = (|q| * (B + 100)) * |q| ^ 2 * |q| ^ 2 := by ring
    rw [h1, ← hs]
    have h2 : |q| * (B + 100) * s ≤ 1 * s := mul_le_mul_of_nonneg_right hq.le hs0.le
    have h3 := mul_le_mul_of_nonneg_right h2 hs0.le
    have h4 : s * s ≤ s * (1 / 10000) := mul_le_mul_of_nonneg_left hs1 hs0.le
    linarith
  have hq5 : 0 ≤ |q| ^ 5 := by positivity
  have hBq : 0 ≤ B * |q| ^ 5 := by positivity
  have hv' := abs_le.1 hv
  have hf' := abs_le.1 hf
  have hFl : 0 ≤ F ∧ F ≤ 1 - s := ⟨by linarith [hf'.1], by linarith [hf'.2]⟩
  have hyl : 0 ≤ y π ∧ y π ≤ 1 - s := ⟨by linarith [hv'.1], by linarith [hv'.2]⟩
  have hFy : |F - y π| ≤ (B + 100) * |q| ^ 5 := by
    rw [abs_le]
    constructor <;> linarith [hv'.1, hv'.2, hf'.1, hf'.2]
  refine ⟨arccos F / π, arccos (y π) / π, ?_, if_neg (not_lt.2 (abs_le.2 ⟨by linarith [hyl.1], by linarith [hyl.2]⟩)), ?_⟩
  · unfold nuExpD0ap
    rw [sqrt_sq hx.le]
    have : ¬ (x ^ 2 < 0 ∨ 4 * x * (x ^ 2 - 1) = 0) := by
      rintro (h | h)
      · linarith
      · exact mul_ne_zero (by positivity) (ne_of_lt (by rw [← hb]; linarith)) h
    rw [if_neg this]
    simp only [← hF]
    rw [if_pos (abs_le.2 ⟨by linarith [hFl.1], by linarith [hFl.2]⟩)]
  · obtain ⟨X, hX⟩ : ∃ X, X = arccos F := ⟨_, rfl⟩
    obtain ⟨W, hW⟩ : ∃ W, W = arccos (y π) := ⟨_, rfl⟩
    have hcX : cos X = F := by rw [hX, cos_arccos (by linarith [hFl.1]) (by linarith [hFl.2])]
    have hcW : cos W = y π := by rw [hW, cos_arccos (by linarith [hyl.1]) (by linarith [hyl.2])]
    have hX0 : 0 ≤ X := hX ▸ arccos_nonneg _
    have hW0 : 0 ≤ W := hW ▸ arccos_nonneg _
    have hge := cos_sub_ge hX0 (hX ▸ arccos_le_pi_div_two.2 hFl.1) hW0 (hW ▸ arccos_le_pi_div_two.2 hyl.1)
    rw [hcX, hcW, ← hpe] at hge
    have hXq : |q| ≤ X := by
      have h1 := one_sub_sq_div_two_le_cos (x := X)
      rw [hcX] at h1
      have h2 : |q| ^ 2 ≤ X ^ 2 := by rw [← hs]; linarith [hFl.2]
      exact (pow_le_pow_iff_left₀ q0 hX0 (by norm_num)).1 h2
    have h3 : |X ^ 2 - W ^ 2| = (X + W) * |X - W| := by
      rw [show X ^ 2 - W ^ 2 = (X + W) * (X - W) by ring, abs_mul, abs_of_nonneg (by linarith)]
    have h4 : |q| * |X - W| ≤ |X ^ 2 - W ^ 2| := by
      rw [h3]
      exact mul_le_mul_of_nonneg_right (by linarith) (abs_nonneg _)
    have h5 : |X ^ 2 - W ^ 2| ≤ 5 * ((B + 100) * |q| ^ 5) := by
      have h6 : 2 / p * |X ^ 2 - W ^ 2| ≤ (B + 100) * |q| ^ 5 := hge.trans hFy
      rw [div_mul_eq_mul_div, div_le_iff₀ (by linarith)] at h6
      have h7 : (B + 100) * |q| ^ 5 * p ≤ (B + 100) * |q| ^ 5 * 10 := mul_le_mul_of_nonneg_left hp2 (by positivity)
      linarith
    have h6 : |X - W| ≤ 5 * ((B + 100) * |q| ^ 4) := by
      have : |q| * |X - W| ≤ |q| * (5 * ((B + 100) * |q| ^ 4)) := by
        refine h4.trans (h5.trans (le_of_eq ?_))
        ring
      exact le_of_mul_le_mul_left this hqpos
    rw [← hX, ← hW, ← sub_div, abs_div, abs_of_pos hp, div_le_iff₀ hp]
    have h8 : 0 ≤ (B + 100) * |q| ^ 4 := by positivity
    have h9 := mul_le_mul_of_nonneg_left hp3.le h8
    linarith

/-- `a` and `q` of this kind exist as near to zero as one likes -/
example {δ : ℝ} (h : 0 < δ) : ∃ a q : ℝ, 0 < a ∧ a ≤ q ^ 2 ∧ |q| < δ :=
  ⟨(δ / 2) ^ 2, δ / 2, by positivity, le_rfl, by rw [abs_of_pos (by positivity)]; linarith⟩

end Electrode
