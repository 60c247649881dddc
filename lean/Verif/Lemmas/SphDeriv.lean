import Verif.Model.SphDeriv
import Verif.Spec.SolidHarmonic
import Verif.Lemmas.Calculus

/-
Solid harmonics as polynomials, Taylor polynomials of symmetric tensors, and the expansion of the code's rows in solid harmonics.
-/
namespace Electrode
open Spec

/-! ### solid harmonics are polynomials -/

/-- the part of a solid harmonic that does not depend on the azimuth -/
noncomputable def zPoly (l mu : Nat) (r2 z : ℝ) : ℝ :=
  1 / (2 ^ l * (l.factorial : ℝ)) * ∑ k ∈ Finset.range (l + 1),
    (l.choose k : ℝ) * (-1) ^ k * ((2 * (l - k)).descFactorial (l + mu) : ℝ) * r2 ^ k * z ^ (2 * (l - k) - (l + mu))

theorem legendre_derivative (l mu : Nat) (u : ℝ) : (Polynomial.derivative^[mu] (Spec.legendre l)).eval u =
    1 / (2 ^ l * (l.factorial : ℝ)) * ∑ k ∈ Finset.range (l + 1),
      (l.choose k : ℝ) * (-1) ^ k * ((2 * (l - k)).descFactorial (l + mu) : ℝ) * u ^ (2 * (l - k) - (l + mu)) := by
  unfold Spec.legendre
  rw [Polynomial.iterate_derivative_C_mul, ← Function.iterate_add_apply, Polynomial.eval_mul, Polynomial.eval_C]
  congr 1
  have e : ((Polynomial.X ^ 2 - 1 : Polynomial ℝ)) ^ l = ∑ k ∈ Finset.range (l + 1),
      Polynomial.C ((l.choose k : ℝ) * (-1) ^ k) * Polynomial.X ^ (2 * (l - k)) := by
    rw [sub_eq_neg_add, add_pow]
    apply Finset.sum_congr rfl
    intro k _
    rw [← pow_mul]
    simp
    ring
  rw [e, Polynomial.iterate_derivative_sum, Polynomial.eval_finset_sum, add_comm mu l]
  apply Finset.sum_congr rfl
  intro k _
  rw [Polynomial.iterate_derivative_C_mul, Polynomial.iterate_derivative_X_pow_eq_natCast_mul]
  simp
  ring

/-- real and imaginary part of a power of `x + iy` -/
noncomputable def triPoly (m : Int) (x y : ℝ) : ℝ :=
  if m = 0 then 1 else if 0 < m then √2 * ((⟨x, y⟩ : ℂ) ^ m.natAbs).re else √2 * ((⟨x, y⟩ : ℂ) ^ m.natAbs).im

theorem re_im_pow (w : ℂ) (n : Nat) : (w ^ n).re = ‖w‖ ^ n * Real.cos (n * Complex.arg w) ∧
    (w ^ n).im = ‖w‖ ^ n * Real.sin (n * Complex.arg w) := by
  have h : w ^ n = (‖w‖ ^ n : ℝ) * Complex.exp ((n * Complex.arg w : ℝ) * Complex.I) := by
    conv_lhs => rw [← Complex.norm_mul_exp_arg_mul_I w]
    rw [mul_pow, ← Complex.exp_nat_mul]
    push_cast
    ring_nf
  rw [h]
  constructor
  · rw [Complex.re_ofReal_mul, Complex.exp_ofReal_mul_I_re]
  · rw [Complex.im_ofReal_mul, Complex.exp_ofReal_mul_I_im]

theorem solidY_poly (l : Nat) (m : Int) (hm : m.natAbs ≤ l) (p : V3) : solidY l m p =
    harmonicNorm l m.natAbs * (-1) ^ m.natAbs * zPoly l m.natAbs (p.x ^ 2 + p.y ^ 2 + p.z ^ 2) p.z * triPoly m p.x p.y := by
  set r2 := p.x ^ 2 + p.y ^ 2 + p.z ^ 2 with hr2
  have h0 : 0 ≤ r2 := by positivity
  have hrad : radius p = √r2 := rfl
  set mu := m.natAbs with hmu
  have htri : ‖(⟨p.x, p.y⟩ : ℂ)‖ ^ mu * (if m = 0 then 1 else if 0 < m then √2 * Real.cos (mu * Complex.arg ⟨p.x, p.y⟩)
      else √2 * Real.sin (mu * Complex.arg ⟨p.x, p.y⟩)) = triPoly m p.x p.y := by
    unfold triPoly
    by_cases hz : m = 0
    · have : mu = 0 := by simp [hmu, hz]
      simp [hz, this]
    · simp only [if_neg hz]
      rw [← hmu, (re_im_pow _ mu).1, (re_im_pow _ mu).2]
      split_ifs <;> ring
  have hmain : √r2 ^ l * (√(1 - (p.z / √r2) ^ 2) ^ mu * (1 / (2 ^ l * (l.factorial : ℝ)) * ∑ k ∈ Finset.range (l + 1),
      (l.choose k : ℝ) * (-1) ^ k * ((2 * (l - k)).descFactorial (l + mu) : ℝ) * (p.z / √r2) ^ (2 * (l - k) - (l + mu)))) =
      ‖(⟨p.x, p.y⟩ : ℂ)‖ ^ mu * zPoly l mu r2 p.z := by
    rcases eq_or_lt_of_le h0 with h | h
    · have hx : p.x = 0 := by nlinarith [sq_nonneg p.x, sq_nonneg p.y, sq_nonneg p.z]
      have hy : p.y = 0 := by nlinarith [sq_nonneg p.x, sq_nonneg p.y, sq_nonneg p.z]
      have hz : p.z = 0 := by nlinarith [sq_nonneg p.x, sq_nonneg p.y, sq_nonneg p.z]
      have hw : (⟨p.x, p.y⟩ : ℂ) = 0 := by rw [hx, hy]; rfl
      rw [hw, ← h, hz]
      rcases Nat.eq_zero_or_pos l with rfl | hl
      · have : mu = 0 := by omega
        simp [this, zPoly]
      · rw [Real.sqrt_zero, zero_pow (by omega), zero_mul, norm_zero]
        rcases Nat.eq_zero_or_pos mu with hm0 | hm0
        · rw [hm0]
          unfold zPoly
          rw [Finset.sum_eq_zero, mul_zero, mul_zero]
          intro k hk
          by_cases hk0 : k = 0
          · subst hk0
            rw [zero_pow (by omega : 2 * (l - 0) - (l + 0) ≠ 0), mul_zero]
          · rw [zero_pow hk0]; ring
        · rw [zero_pow (by omega), zero_mul]
    · have hs : 0 < √r2 := Real.sqrt_pos.2 h
      have hsq : √r2 ^ 2 = r2 := Real.sq_sqrt h0
      have hnorm : √r2 * √(1 - (p.z / √r2) ^ 2) = ‖(⟨p.x, p.y⟩ : ℂ)‖ := by
        rw [Complex.norm_eq_sqrt_sq_add_sq, ← Real.sqrt_mul h0]
        congr 1
        rw [div_pow, hsq]
        field_simp
        rw [hr2]; ring
      rw [← hnorm, mul_pow]
      unfold zPoly
      have hl : √r2 ^ l = √r2 ^ mu * √r2 ^ (l - mu) := by rw [← pow_add]; congr 1; omega
      rw [hl]
      have hsum : √r2 ^ (l - mu) * ∑ k ∈ Finset.range (l + 1),
          (l.choose k : ℝ) * (-1) ^ k * ((2 * (l - k)).descFactorial (l + mu) : ℝ) * (p.z / √r2) ^ (2 * (l - k) - (l + mu)) =
          ∑ k ∈ Finset.range (l + 1),
          (l.choose k : ℝ) * (-1) ^ k * ((2 * (l - k)).descFactorial (l + mu) : ℝ) * r2 ^ k * p.z ^ (2 * (l - k) - (l + mu)) := by
        rw [Finset.mul_sum]
        apply Finset.sum_congr rfl
        intro k hk
        have hk' : k ≤ l := by simpa [Nat.lt_succ_iff] using hk
        by_cases hlt : 2 * (l - k) < l + mu
        · rw [Nat.descFactorial_eq_zero_iff_lt.2 hlt]; simp
        · have e : l - mu = 2 * k + (2 * (l - k) - (l + mu)) := by omega
          rw [div_pow]
          conv_lhs => rw [e, pow_add, pow_mul, hsq]
          field_simp
      calc _ = √r2 ^ mu * √(1 - (p.z / √r2) ^ 2) ^ mu * (1 / (2 ^ l * (l.factorial : ℝ)) * (√r2 ^ (l - mu) * ∑ k ∈ Finset.range (l + 1),
          (l.choose k : ℝ) * (-1) ^ k * ((2 * (l - k)).descFactorial (l + mu) : ℝ) * (p.z / √r2) ^ (2 * (l - k) - (l + mu)))) := by ring
        _ = _ := by rw [hsum]
  unfold Spec.solidY Spec.realY Spec.assocLegendre
  rw [← hmu, hrad]
  have hcos : Real.cos (Real.arccos (p.z / √r2)) = p.z / √r2 := by
    have hle : |p.z| ≤ √r2 := Real.abs_le_sqrt (by rw [hr2]; nlinarith [sq_nonneg p.x, sq_nonneg p.y])
    have hle' : |p.z / √r2| ≤ 1 := by
      rw [abs_div, abs_of_nonneg (Real.sqrt_nonneg _)]
      exact div_le_one_of_le₀ hle (Real.sqrt_nonneg _)
    exact Real.cos_arccos (abs_le.1 hle').1 (abs_le.1 hle').2
  rw [hcos, legendre_derivative, ← htri]
  linear_combination (harmonicNorm l mu * (-1) ^ mu * (if m = 0 then 1 else if 0 < m then √2 * Real.cos (mu * Complex.arg ⟨p.x, p.y⟩)
      else √2 * Real.sin (mu * Complex.arg ⟨p.x, p.y⟩))) * hmain

/-! ### Taylor polynomials -/

/-- `taylorTerm` without the factorial, by recursion -/
def homPoly : (n : Nat) → (List (Fin 3) → ℝ) → V3 → ℝ
  | 0, T, _ => T []
  | n + 1, T, p => p.x * homPoly n (fun l => T (0 :: l)) p + p.y * homPoly n (fun l => T (1 :: l)) p
      + p.z * homPoly n (fun l => T (2 :: l)) p

theorem homPoly_eq (n : Nat) : ∀ (T : List (Fin 3) → ℝ) (p : V3),
    ((tuples n).map fun ks => T ks * (ks.map (coord p)).prod).sum = homPoly n T p := by
  induction n with
  | zero => intro T p; simp [tuples, homPoly]
  | succ n ih =>
    intro T p
    simp only [tuples, homPoly, List.flatMap_cons, List.flatMap_nil, List.append_nil, List.map_append, List.sum_append, List.map_map]
    rw [← ih, ← ih, ← ih, ← List.sum_map_mul_left, ← List.sum_map_mul_left, ← List.sum_map_mul_left, add_assoc]
    congr 1
    · congr 1; apply List.map_congr_left; intro l _; simp [coord]; ring
    · congr 1 <;>
      · congr 1; apply List.map_congr_left; intro l _; simp [coord]; ring

theorem homPoly_congr (n : Nat) : ∀ {T T' : List (Fin 3) → ℝ} (p : V3), (∀ l, l.length = n → T l = T' l) →
    homPoly n T p = homPoly n T' p := by
  induction n with
  | zero => intro T T' p h; exact h [] rfl
  | succ n ih =>
    intro T T' p h
    simp only [homPoly]
    rw [ih p fun l hl => h (0 :: l) (by simp [hl]), ih p fun l hl => h (1 :: l) (by simp [hl]), ih p fun l hl => h (2 :: l) (by simp [hl])]

theorem Spec.HasPartial.mul {a : Axis} {f g : V3 → ℝ} {f' g' : ℝ} {p : V3} (h : HasPartial a f f' p)
    (h' : HasPartial a g g' p) : HasPartial a (fun q => f q * g q) (f' * g p + f p * g') p := by
  have := HasDerivAt.fun_mul h h'
  have e : shift p a 0 = p := by fin_cases a <;> simp [shift]
  rw [e] at this
  exact this

theorem hasPartial_coord (a b : Axis) (p : V3) : HasPartial a (fun q => coord q b) (if a = b then 1 else 0) p := by
  unfold HasPartial
  fin_cases a <;> fin_cases b <;> simp [shift, coord] <;>
    first
    | exact hasDerivAt_const _ _
    | exact (hasDerivAt_id (0 : ℝ)).const_add _

theorem homPoly_partial (n : Nat) : ∀ {T : List (Fin 3) → ℝ} (_ : Spec.Symmetric (n + 1) T) (a : Axis) (p : V3),
    HasPartial a (homPoly (n + 1) T) ((n + 1) * homPoly n (fun l => T (a :: l)) p) p := by
  induction n with
  | zero =>
    intro T _ a p
    have e : ∀ q : V3, coord q 0 * T [0] + coord q 1 * T [1] + coord q 2 * T [2] = homPoly 1 T q := by
      intro q; simp [homPoly, coord]
    refine Spec.HasPartial.congr ?_ e
    have := (((hasPartial_coord a 0 p).mul (Spec.HasPartial.const a (T [0]) p)).add
      ((hasPartial_coord a 1 p).mul (Spec.HasPartial.const a (T [1]) p))).add
      ((hasPartial_coord a 2 p).mul (Spec.HasPartial.const a (T [2]) p))
    convert this using 1
    fin_cases a <;> simp [homPoly]
  | succ n ih =>
    intro T hT a p
    have hs : ∀ b : Axis, Spec.Symmetric (n + 1) fun l => T (b :: l) := fun b l l' hl hp =>
      hT _ _ (by simp [hl]) (hp.cons b)
    have e : ∀ q : V3, coord q 0 * homPoly (n + 1) (fun l => T (0 :: l)) q + coord q 1 * homPoly (n + 1) (fun l => T (1 :: l)) q
        + coord q 2 * homPoly (n + 1) (fun l => T (2 :: l)) q = homPoly (n + 2) T q := fun q => rfl
    refine Spec.HasPartial.congr ?_ e
    have := (((hasPartial_coord a 0 p).mul (ih (hs 0) a p)).add
      ((hasPartial_coord a 1 p).mul (ih (hs 1) a p))).add
      ((hasPartial_coord a 2 p).mul (ih (hs 2) a p))
    convert this using 1
    have hsw : ∀ b : Axis, homPoly n (fun l => T (b :: a :: l)) p = homPoly n (fun l => T (a :: b :: l)) p := fun b =>
      homPoly_congr n p fun l hl => hT _ _ (by simp [hl]) (List.Perm.swap _ _ _)
    have hrec : homPoly (n + 1) (fun l => T (a :: l)) p = coord p 0 * homPoly n (fun l => T (a :: 0 :: l)) p
        + coord p 1 * homPoly n (fun l => T (a :: 1 :: l)) p + coord p 2 * homPoly n (fun l => T (a :: 2 :: l)) p := rfl
    simp only [hsw]
    push_cast
    fin_cases a <;> simp only [Fin.zero_eta, Fin.mk_one, Fin.reduceFinMk, Fin.isValue, reduceIte, Fin.reduceEq] at hrec ⊢ <;>
      linear_combination ((n : ℝ) + 1) * hrec

theorem IsIterated_smul {U : V3 → Prop} (c : ℝ) : ∀ (l : List (Fin 3)) {f g : V3 → ℝ}, IsIterated U l f g →
    IsIterated U l (fun p => c * f p) fun p => c * g p := by
  intro l
  induction l with
  | nil => intro f g h p hp; simp only [h p hp]
  | cons a l ih =>
    intro f g h
    obtain ⟨f', h1, h2⟩ := h
    exact ⟨fun p => c * f' p, fun p hp => (h1 p hp).const_mul c, ih h2⟩

theorem homPoly_iterated (U : V3 → Prop) : ∀ (l : List (Fin 3)) {T : List (Fin 3) → ℝ}, Spec.Symmetric l.length T →
    IsIterated U l (homPoly l.length T) fun _ => (l.length.factorial : ℝ) * T l := by
  intro l
  induction l with
  | nil => intro T _ p _; simp [homPoly]
  | cons a l ih =>
    intro T hT
    refine ⟨fun p => (l.length + 1) * homPoly l.length (fun m => T (a :: m)) p, fun p _ => homPoly_partial l.length hT a p, ?_⟩
    have := IsIterated_smul ((l.length : ℝ) + 1) l (ih (T := fun m => T (a :: m)) fun x y hx hp => hT _ _ (by simp [hx]) (hp.cons a))
    refine this.congr (fun _ => rfl) fun p => ?_
    simp only [List.length_cons, Nat.factorial_succ]
    push_cast; ring

/-- the derivatives of the Taylor polynomial are the entries -/
theorem taylorTerm_iterated (U : V3 → Prop) (l : List (Fin 3)) {T : List (Fin 3) → ℝ} (hT : Spec.Symmetric l.length T) :
    IsIterated U l (taylorTerm l.length T) fun _ => T l := by
  refine (IsIterated_smul (1 / (l.length.factorial : ℝ)) l (homPoly_iterated U l hT)).congr (fun p => ?_) fun p => ?_
  · unfold taylorTerm; rw [homPoly_eq]; ring
  · have : (l.length.factorial : ℝ) ≠ 0 := by positivity
    field_simp

theorem IsIterated_unique : ∀ (l : List (Fin 3)) {f g g' : V3 → ℝ}, IsIterated (fun _ => True) l f g →
    IsIterated (fun _ => True) l f g' → g = g' := by
  intro l
  induction l with
  | nil => intro f g g' h h'; funext p; rw [← h p trivial, ← h' p trivial]
  | cons a l ih =>
    rintro f g g' ⟨f1, h1, h2⟩ ⟨f2, h3, h4⟩
    have e : f1 = f2 := by
      funext p
      exact HasDerivAt.unique (h1 p trivial) (h3 p trivial)
    subst e
    exact ih h2 h4

/-! ### sums over sorted axis tuples -/

/-- the sorted axis tuples with the number of their rearrangements -/
def monos (n : Nat) : List (Nat × Idx) :=
  (List.range (n + 1)).flatMap fun i => (List.range (n + 1 - i)).map fun j =>
    (n.factorial / (i.factorial * j.factorial * (n - i - j).factorial),
      List.replicate i 0 ++ List.replicate j 1 ++ List.replicate (n - i - j) 2)

theorem tuples_monos : ∀ n < 6, ((tuples n).map sortIdx).Perm ((monos n).flatMap fun q => List.replicate q.1 q.2) := by
  decide +kernel

theorem sum_monos (F : Idx → ℝ) (L : List (Nat × Idx)) :
    ((L.flatMap fun q => List.replicate q.1 q.2).map F).sum = (L.map fun q => (q.1 : ℝ) * F q.2).sum := by
  induction L with
  | nil => rfl
  | cons a L ih => simp [ih]

theorem taylorTerm_full (l : Nat) (hl : l < 6) (c : List ℝ) (p : V3) : taylorTerm l (entry (fullOf l c)) p =
    (((monos l).map fun q => (q.1, q.2, entrySel l q.2)).map fun q =>
      (q.1 : ℝ) * (selVal c q.2.2 * (q.2.1.map (coord p)).prod)).sum / (l.factorial : ℝ) := by
  unfold taylorTerm
  congr 1
  have h1 : (tuples l).map (fun ks => entry (fullOf l c) ks * (ks.map (coord p)).prod) =
      ((tuples l).map sortIdx).map fun ks => selVal c (entrySel l ks) * (ks.map (coord p)).prod := by
    rw [List.map_map]
    apply List.map_congr_left
    intro ks hk
    have hp := sortIdx_perm ks
    simp only [Function.comp]
    rw [entry_fullOf l c ks (mem_tuples.1 hk), entrySel_perm l hp, (hp.map (coord p)).prod_eq]
  rw [h1, ((tuples_monos l hl).map _).sum_eq, sum_monos, List.map_map]
  rfl
/-! ### the polynomials of degree at most 5 -/

theorem zPoly_0_0 (r2 z : ℝ) : zPoly 0 0 r2 z = (1) * r2 ^ 0 * z ^ 0 := by
  simp [zPoly, Finset.sum_range_succ, Nat.choose, Nat.descFactorial, Nat.factorial]
  try ring

theorem zPoly_1_0 (r2 z : ℝ) : zPoly 1 0 r2 z = (1) * r2 ^ 0 * z ^ 1 := by
  simp [zPoly, Finset.sum_range_succ, Nat.choose, Nat.descFactorial, Nat.factorial]
  try ring

theorem zPoly_1_1 (r2 z : ℝ) : zPoly 1 1 r2 z = (1) * r2 ^ 0 * z ^ 0 := by
  simp [zPoly, Finset.sum_range_succ, Nat.choose, Nat.descFactorial, Nat.factorial]
  try ring

theorem zPoly_2_0 (r2 z : ℝ) : zPoly 2 0 r2 z = (3/2) * r2 ^ 0 * z ^ 2 + (-1/2) * r2 ^ 1 * z ^ 0 := by
  simp [zPoly, Finset.sum_range_succ, Nat.choose, Nat.descFactorial, Nat.factorial]
  try ring

theorem zPoly_2_1 (r2 z : ℝ) : zPoly 2 1 r2 z = (3) * r2 ^ 0 * z ^ 1 := by
  simp [zPoly, Finset.sum_range_succ, Nat.choose, Nat.descFactorial, Nat.factorial]
  try ring

theorem zPoly_2_2 (r2 z : ℝ) : zPoly 2 2 r2 z = (3) * r2 ^ 0 * z ^ 0 := by
  simp [zPoly, Finset.sum_range_succ, Nat.choose, Nat.descFactorial, Nat.factorial]
  try ring

theorem zPoly_3_0 (r2 z : ℝ) : zPoly 3 0 r2 z = (5/2) * r2 ^ 0 * z ^ 3 + (-3/2) * r2 ^ 1 * z ^ 1 := by
  simp [zPoly, Finset.sum_range_succ, Nat.choose, Nat.descFactorial, Nat.factorial]
  try ring

theorem zPoly_3_1 (r2 z : ℝ) : zPoly 3 1 r2 z = (15/2) * r2 ^ 0 * z ^ 2 + (-3/2) * r2 ^ 1 * z ^ 0 := by
  simp [zPoly, Finset.sum_range_succ, Nat.choose, Nat.descFactorial, Nat.factorial]
  try ring

theorem zPoly_3_2 (r2 z : ℝ) : zPoly 3 2 r2 z = (15) * r2 ^ 0 * z ^ 1 := by
  simp [zPoly, Finset.sum_range_succ, Nat.choose, Nat.descFactorial, Nat.factorial]
  try ring

theorem zPoly_3_3 (r2 z : ℝ) : zPoly 3 3 r2 z = (15) * r2 ^ 0 * z ^ 0 := by
  simp [zPoly, Finset.sum_range_succ, Nat.choose, Nat.descFactorial, Nat.factorial]
  try ring

theorem zPoly_4_0 (r2 z : ℝ) : zPoly 4 0 r2 z = (35/8) * r2 ^ 0 * z ^ 4 + (-15/4) * r2 ^ 1 * z ^ 2 + (3/8) * r2 ^ 2 * z ^ 0 := by
  simp [zPoly, Finset.sum_range_succ, Nat.choose, Nat.descFactorial, Nat.factorial]
  try ring

theorem zPoly_4_1 (r2 z : ℝ) : zPoly 4 1 r2 z = (35/2) * r2 ^ 0 * z ^ 3 + (-15/2) * r2 ^ 1 * z ^ 1 := by
  simp [zPoly, Finset.sum_range_succ, Nat.choose, Nat.descFactorial, Nat.factorial]
  try ring

theorem zPoly_4_2 (r2 z : ℝ) : zPoly 4 2 r2 z = (105/2) * r2 ^ 0 * z ^ 2 + (-15/2) * r2 ^ 1 * z ^ 0 := by
  simp [zPoly, Finset.sum_range_succ, Nat.choose, Nat.descFactorial, Nat.factorial]
  try ring

theorem zPoly_4_3 (r2 z : ℝ) : zPoly 4 3 r2 z = (105) * r2 ^ 0 * z ^ 1 := by
  simp [zPoly, Finset.sum_range_succ, Nat.choose, Nat.descFactorial, Nat.factorial]
  try ring

theorem zPoly_4_4 (r2 z : ℝ) : zPoly 4 4 r2 z = (105) * r2 ^ 0 * z ^ 0 := by
  simp [zPoly, Finset.sum_range_succ, Nat.choose, Nat.descFactorial, Nat.factorial]
  try ring

theorem zPoly_5_0 (r2 z : ℝ) : zPoly 5 0 r2 z = (63/8) * r2 ^ 0 * z ^ 5 + (-35/4) * r2 ^ 1 * z ^ 3 + (15/8) * r2 ^ 2 * z ^ 1 := by
  simp [zPoly, Finset.sum_range_succ, Nat.choose, Nat.descFactorial, Nat.factorial]
  try ring

theorem zPoly_5_1 (r2 z : ℝ) : zPoly 5 1 r2 z = (315/8) * r2 ^ 0 * z ^ 4 + (-105/4) * r2 ^ 1 * z ^ 2 + (15/8) * r2 ^ 2 * z ^ 0 := by
  simp [zPoly, Finset.sum_range_succ, Nat.choose, Nat.descFactorial, Nat.factorial]
  try ring

theorem zPoly_5_2 (r2 z : ℝ) : zPoly 5 2 r2 z = (315/2) * r2 ^ 0 * z ^ 3 + (-105/2) * r2 ^ 1 * z ^ 1 := by
  simp [zPoly, Finset.sum_range_succ, Nat.choose, Nat.descFactorial, Nat.factorial]
  try ring

theorem zPoly_5_3 (r2 z : ℝ) : zPoly 5 3 r2 z = (945/2) * r2 ^ 0 * z ^ 2 + (-105/2) * r2 ^ 1 * z ^ 0 := by
  simp [zPoly, Finset.sum_range_succ, Nat.choose, Nat.descFactorial, Nat.factorial]
  try ring

theorem zPoly_5_4 (r2 z : ℝ) : zPoly 5 4 r2 z = (945) * r2 ^ 0 * z ^ 1 := by
  simp [zPoly, Finset.sum_range_succ, Nat.choose, Nat.descFactorial, Nat.factorial]
  try ring

theorem zPoly_5_5 (r2 z : ℝ) : zPoly 5 5 r2 z = (945) * r2 ^ 0 * z ^ 0 := by
  simp [zPoly, Finset.sum_range_succ, Nat.choose, Nat.descFactorial, Nat.factorial]
  try ring

theorem cpow_1 (x y : ℝ) : ((⟨x, y⟩ : ℂ) ^ 1).re = (1) * x ^ 1 * y ^ 0 ∧
    ((⟨x, y⟩ : ℂ) ^ 1).im = (1) * x ^ 0 * y ^ 1 := by
  simp

theorem cpow_2 (x y : ℝ) : ((⟨x, y⟩ : ℂ) ^ 2).re = (1) * x ^ 2 * y ^ 0 + (-1) * x ^ 0 * y ^ 2 ∧
    ((⟨x, y⟩ : ℂ) ^ 2).im = (2) * x ^ 1 * y ^ 1 := by
  simp only [pow_succ, pow_zero, one_mul, Complex.mul_re, Complex.mul_im]
  constructor <;> ring

theorem cpow_3 (x y : ℝ) : ((⟨x, y⟩ : ℂ) ^ 3).re = (1) * x ^ 3 * y ^ 0 + (-3) * x ^ 1 * y ^ 2 ∧
    ((⟨x, y⟩ : ℂ) ^ 3).im = (3) * x ^ 2 * y ^ 1 + (-1) * x ^ 0 * y ^ 3 := by
  simp only [pow_succ, pow_zero, one_mul, Complex.mul_re, Complex.mul_im]
  constructor <;> ring

theorem cpow_4 (x y : ℝ) : ((⟨x, y⟩ : ℂ) ^ 4).re = (1) * x ^ 4 * y ^ 0 + (-6) * x ^ 2 * y ^ 2 + (1) * x ^ 0 * y ^ 4 ∧
    ((⟨x, y⟩ : ℂ) ^ 4).im = (4) * x ^ 3 * y ^ 1 + (-4) * x ^ 1 * y ^ 3 := by
  simp only [pow_succ, pow_zero, one_mul, Complex.mul_re, Complex.mul_im]
  constructor <;> ring

theorem cpow_5 (x y : ℝ) : ((⟨x, y⟩ : ℂ) ^ 5).re = (1) * x ^ 5 * y ^ 0 + (-10) * x ^ 3 * y ^ 2 + (5) * x ^ 1 * y ^ 4 ∧
    ((⟨x, y⟩ : ℂ) ^ 5).im = (5) * x ^ 4 * y ^ 1 + (-10) * x ^ 2 * y ^ 3 + (1) * x ^ 0 * y ^ 5 := by
  simp only [pow_succ, pow_zero, one_mul, Complex.mul_re, Complex.mul_im]
  constructor <;> ring

theorem sph_coef (l mu : Nat) {K s e : ℝ} (hK : 0 ≤ K) (he : 0 ≤ e) (hs : 0 ≤ s)
    (h : K * e * ((l - mu).factorial : ℝ) = s ^ 2 * ((l + mu).factorial : ℝ)) :
    sphFactor l * √K * (harmonicNorm l mu * √e) = 4 * (2 * l + 1) * ((l + 1).factorial : ℝ) / ((2 * l + 2).factorial : ℝ) * s := by
  unfold sphFactor harmonicNorm
  have hpi := Real.pi_pos
  have hf : ((l + mu).factorial : ℝ) ≠ 0 := by positivity
  have hl : (0 : ℝ) ≤ 2 * l + 1 := by positivity
  have key : √(Real.pi * (2 * l + 1)) * √K * (√((2 * l + 1) / (4 * Real.pi) * (((l - mu).factorial : ℝ) / ((l + mu).factorial : ℝ))) * √e) =
      (2 * l + 1) / 2 * s := by
    rw [← Real.sqrt_mul (by positivity), ← Real.sqrt_mul (by positivity), ← Real.sqrt_mul (by positivity)]
    rw [Real.sqrt_eq_iff_mul_self_eq (by positivity) (by positivity)]
    field_simp
    linear_combination 4 * h
  linear_combination (8 * ((l + 1).factorial : ℝ) / ((2 * l + 2).factorial : ℝ)) * key

theorem sph_term_zero (l : Nat) (a L : ℝ) (p : V3) : sphFactor l * (a * L) * solidY l 0 p =
    4 * (2 * l + 1) * ((l + 1).factorial : ℝ) / ((2 * l + 2).factorial : ℝ) * (a * L) *
      zPoly l 0 (p.x ^ 2 + p.y ^ 2 + p.z ^ 2) p.z := by
  have h := sph_coef l 0 (K := 1) (s := 1) (e := 1) (by norm_num) (by norm_num) (by norm_num) (by norm_num)
  rw [Real.sqrt_one, mul_one, mul_one, mul_one] at h
  rw [solidY_poly l 0 (by simp)]
  simp only [triPoly, Int.natAbs_zero, pow_zero, mul_one, if_true]
  linear_combination (a * L * zPoly l 0 (p.x ^ 2 + p.y ^ 2 + p.z ^ 2) p.z) * h

theorem sph_term_pos (l mu : Nat) (h0 : 0 < mu) (hmu : mu ≤ l) {K s : ℝ} (hK : 0 ≤ K) (hs : 0 ≤ s)
    (h : K * 2 * ((l - mu).factorial : ℝ) = s ^ 2 * ((l + mu).factorial : ℝ)) (a L : ℝ) (p : V3) :
    sphFactor l * (a * √K * L) * solidY l (mu : Int) p =
      4 * (2 * l + 1) * ((l + 1).factorial : ℝ) / ((2 * l + 2).factorial : ℝ) * s * (a * L) *
      ((-1) ^ mu * zPoly l mu (p.x ^ 2 + p.y ^ 2 + p.z ^ 2) p.z * ((⟨p.x, p.y⟩ : ℂ) ^ mu).re) := by
  have hc := sph_coef l mu (K := K) (s := s) (e := 2) hK (by norm_num) hs h
  rw [solidY_poly l mu (by simpa using hmu)]
  have h1 : (mu : Int) ≠ 0 := by omega
  have h2 : (0 : Int) < mu := by omega
  simp only [triPoly, Int.natAbs_natCast, if_neg h1, if_pos h2]
  linear_combination (a * L * ((-1) ^ mu * zPoly l mu (p.x ^ 2 + p.y ^ 2 + p.z ^ 2) p.z * ((⟨p.x, p.y⟩ : ℂ) ^ mu).re)) * hc

theorem sph_term_neg (l mu : Nat) (h0 : 0 < mu) (hmu : mu ≤ l) {K s : ℝ} (hK : 0 ≤ K) (hs : 0 ≤ s)
    (h : K * 2 * ((l - mu).factorial : ℝ) = s ^ 2 * ((l + mu).factorial : ℝ)) (a L : ℝ) (p : V3) :
    sphFactor l * (a * √K * L) * solidY l (-(mu : Int)) p =
      4 * (2 * l + 1) * ((l + 1).factorial : ℝ) / ((2 * l + 2).factorial : ℝ) * s * (a * L) *
      ((-1) ^ mu * zPoly l mu (p.x ^ 2 + p.y ^ 2 + p.z ^ 2) p.z * ((⟨p.x, p.y⟩ : ℂ) ^ mu).im) := by
  have hc := sph_coef l mu (K := K) (s := s) (e := 2) hK (by norm_num) hs h
  rw [solidY_poly l (-(mu : Int)) (by simpa using hmu)]
  have h1 : -(mu : Int) ≠ 0 := by omega
  have h2 : ¬ (0 : Int) < -(mu : Int) := by omega
  simp only [triPoly, Int.natAbs_neg, Int.natAbs_natCast, if_neg h1, if_neg h2]
  linear_combination (a * L * ((-1) ^ mu * zPoly l mu (p.x ^ 2 + p.y ^ 2 + p.z ^ 2) p.z * ((⟨p.x, p.y⟩ : ℂ) ^ mu).im)) * hc

theorem monos_1 : ((monos 1).map fun q => (q.1, q.2, entrySel 1 q.2)) = (
[(1, [2], .one 2), (1, [1], .one 1), (1, [0], .one 0)] : List (Nat × Idx × Sel)) := by decide +kernel

theorem monos_2 : ((monos 2).map fun q => (q.1, q.2, entrySel 2 q.2)) = (
[(1, [2, 2], .lap 0 3),
 (2, [1, 2], .one 4),
 (1, [1, 1], .one 3),
 (2, [0, 2], .one 2),
 (2, [0, 1], .one 1),
 (1, [0, 0], .one 0)] : List (Nat × Idx × Sel)) := by decide +kernel

theorem monos_3 : ((monos 3).map fun q => (q.1, q.2, entrySel 3 q.2)) = (
[(1, [2, 2, 2], .lap 1 2),
 (3, [1, 2, 2], .one 5),
 (3, [1, 1, 2], .one 2),
 (1, [1, 1, 1], .lap 0 5),
 (3, [0, 2, 2], .one 4),
 (6, [0, 1, 2], .one 6),
 (3, [0, 1, 1], .one 3),
 (3, [0, 0, 2], .one 1),
 (3, [0, 0, 1], .one 0),
 (1, [0, 0, 0], .lap 3 4)] : List (Nat × Idx × Sel)) := by decide +kernel

theorem monos_4 : ((monos 4).map fun q => (q.1, q.2, entrySel 4 q.2)) = (
[(1, [2, 2, 2, 2], .lap 3 7),
 (4, [1, 2, 2, 2], .one 8),
 (6, [1, 1, 2, 2], .one 7),
 (4, [1, 1, 1, 2], .one 6),
 (1, [1, 1, 1, 1], .lap 2 7),
 (4, [0, 2, 2, 2], .one 5),
 (12, [0, 1, 2, 2], .lap 0 4),
 (12, [0, 1, 1, 2], .lap 1 5),
 (4, [0, 1, 1, 1], .one 4),
 (6, [0, 0, 2, 2], .one 3),
 (12, [0, 0, 1, 2], .lap 6 8),
 (6, [0, 0, 1, 1], .one 2),
 (4, [0, 0, 0, 2], .one 1),
 (4, [0, 0, 0, 1], .one 0),
 (1, [0, 0, 0, 0], .lap 2 3)] : List (Nat × Idx × Sel)) := by decide +kernel

theorem monos_5 : ((monos 5).map fun q => (q.1, q.2, entrySel 5 q.2)) = (
[(1, [2, 2, 2, 2, 2], .lap 6 10),
 (5, [1, 2, 2, 2, 2], .lap 5 9),
 (10, [1, 1, 2, 2, 2], .one 10),
 (10, [1, 1, 1, 2, 2], .one 9),
 (5, [1, 1, 1, 1, 2], .lap 4 10),
 (1, [1, 1, 1, 1, 1], .lap 3 9),
 (5, [0, 2, 2, 2, 2], .lap 2 8),
 (20, [0, 1, 2, 2, 2], .lap 1 7),
 (30, [0, 1, 1, 2, 2], .one 8),
 (20, [0, 1, 1, 1, 2], .one 7),
 (5, [0, 1, 1, 1, 1], .lap 0 8),
 (10, [0, 0, 2, 2, 2], .one 6),
 (30, [0, 0, 1, 2, 2], .one 5),
 (30, [0, 0, 1, 1, 2], .one 4),
 (10, [0, 0, 1, 1, 1], .one 3),
 (10, [0, 0, 0, 2, 2], .one 2),
 (20, [0, 0, 0, 1, 2], .one 1),
 (10, [0, 0, 0, 1, 1], .one 0),
 (5, [0, 0, 0, 0, 2], .lap 4 6),
 (5, [0, 0, 0, 0, 1], .lap 3 5),
 (1, [0, 0, 0, 0, 0], .lap 0 2)] : List (Nat × Idx × Sel)) := by decide +kernel

theorem sph_sum_1 (c0 c1 c2 : ℝ) (p : V3) : taylorTerm 1 (entry (fullOf 1 [c0, c1, c2])) p =
    sphFactor 1 * (1 * √1 * (-c1)) * solidY 1 (-1) p
      + sphFactor 1 * (1 * (c2)) * solidY 1 0 p
      + sphFactor 1 * (1 * √1 * (-c0)) * solidY 1 1 p := by
  rw [taylorTerm_full 1 (by norm_num)]
  have hm1 := sph_term_neg 1 1 (by norm_num) (by norm_num) (K := 1) (s := 1) (by norm_num) (by norm_num)
    (by norm_num [Nat.factorial]) (1) (-c1) p
  rw [show (-((1 : Nat) : Int)) = -1 from rfl] at hm1
  rw [hm1]
  rw [sph_term_zero 1 (1) (c2) p]
  have hp1 := sph_term_pos 1 1 (by norm_num) (by norm_num) (K := 1) (s := 1) (by norm_num) (by norm_num)
    (by norm_num [Nat.factorial]) (1) (-c0) p
  rw [show (((1 : Nat) : Int)) = 1 from rfl] at hp1
  rw [hp1]
  rw [monos_1]
  simp only [List.map_cons, List.map_nil, List.sum_cons, List.sum_nil, List.prod_cons, List.prod_nil, selVal, List.getD_cons_zero,
    List.getD_cons_succ, coord, zPoly_1_0, zPoly_1_1,
    (cpow_1 _ _).1, (cpow_1 _ _).2]
  norm_num [Nat.factorial]
  ring

theorem sph_sum_2 (c0 c1 c2 c3 c4 : ℝ) (p : V3) : taylorTerm 2 (entry (fullOf 2 [c0, c1, c2, c3, c4])) p =
    sphFactor 2 * (2 * √3 * c1) * solidY 2 (-2) p
      + sphFactor 2 * ((-2) * √3 * c4) * solidY 2 (-1) p
      + sphFactor 2 * (1 * (-c0 - c3 + 2 * (-c0 - c3))) * solidY 2 0 p
      + sphFactor 2 * ((-2) * √3 * c2) * solidY 2 1 p
      + sphFactor 2 * (1 * √3 * (c0 - c3)) * solidY 2 2 p := by
  rw [taylorTerm_full 2 (by norm_num)]
  have hm2 := sph_term_neg 2 2 (by norm_num) (by norm_num) (K := 3) (s := 1/2) (by norm_num) (by norm_num)
    (by norm_num [Nat.factorial]) (2) c1 p
  rw [show (-((2 : Nat) : Int)) = -2 from rfl] at hm2
  rw [hm2]
  have hm1 := sph_term_neg 2 1 (by norm_num) (by norm_num) (K := 3) (s := 1) (by norm_num) (by norm_num)
    (by norm_num [Nat.factorial]) (-2) c4 p
  rw [show (-((1 : Nat) : Int)) = -1 from rfl] at hm1
  rw [hm1]
  rw [sph_term_zero 2 (1) (-c0 - c3 + 2 * (-c0 - c3)) p]
  have hp1 := sph_term_pos 2 1 (by norm_num) (by norm_num) (K := 3) (s := 1) (by norm_num) (by norm_num)
    (by norm_num [Nat.factorial]) (-2) c2 p
  rw [show (((1 : Nat) : Int)) = 1 from rfl] at hp1
  rw [hp1]
  have hp2 := sph_term_pos 2 2 (by norm_num) (by norm_num) (K := 3) (s := 1/2) (by norm_num) (by norm_num)
    (by norm_num [Nat.factorial]) (1) (c0 - c3) p
  rw [show (((2 : Nat) : Int)) = 2 from rfl] at hp2
  rw [hp2]
  rw [monos_2]
  simp only [List.map_cons, List.map_nil, List.sum_cons, List.sum_nil, List.prod_cons, List.prod_nil, selVal, List.getD_cons_zero,
    List.getD_cons_succ, coord, zPoly_2_0, zPoly_2_1, zPoly_2_2,
    (cpow_1 _ _).1, (cpow_1 _ _).2, (cpow_2 _ _).1, (cpow_2 _ _).2]
  norm_num [Nat.factorial]
  ring

theorem sph_sum_3 (c0 c1 c2 c3 c4 c5 c6 : ℝ) (p : V3) : taylorTerm 3 (entry (fullOf 3 [c0, c1, c2, c3, c4, c5, c6])) p =
    sphFactor 3 * (1 * √10 * (-3 * c0 + (-c0 - c5))) * solidY 3 (-3) p
      + sphFactor 3 * (4 * √15 * c6) * solidY 3 (-2) p
      + sphFactor 3 * (1 * √6 * (c0 + (-c0 - c5) - 4 * c5)) * solidY 3 (-1) p
      + sphFactor 3 * (2 * (-3 * c1 - 3 * c2 + 2 * (-c1 - c2))) * solidY 3 0 p
      + sphFactor 3 * (1 * √6 * ((-c3 - c4) + c3 - 4 * c4)) * solidY 3 1 p
      + sphFactor 3 * (2 * √15 * (c1 - c2)) * solidY 3 2 p
      + sphFactor 3 * (1 * √10 * (-(-c3 - c4) + 3 * c3)) * solidY 3 3 p := by
  rw [taylorTerm_full 3 (by norm_num)]
  have hm3 := sph_term_neg 3 3 (by norm_num) (by norm_num) (K := 10) (s := 1/6) (by norm_num) (by norm_num)
    (by norm_num [Nat.factorial]) (1) (-3 * c0 + (-c0 - c5)) p
  rw [show (-((3 : Nat) : Int)) = -3 from rfl] at hm3
  rw [hm3]
  have hm2 := sph_term_neg 3 2 (by norm_num) (by norm_num) (K := 15) (s := 1/2) (by norm_num) (by norm_num)
    (by norm_num [Nat.factorial]) (4) c6 p
  rw [show (-((2 : Nat) : Int)) = -2 from rfl] at hm2
  rw [hm2]
  have hm1 := sph_term_neg 3 1 (by norm_num) (by norm_num) (K := 6) (s := 1) (by norm_num) (by norm_num)
    (by norm_num [Nat.factorial]) (1) (c0 + (-c0 - c5) - 4 * c5) p
  rw [show (-((1 : Nat) : Int)) = -1 from rfl] at hm1
  rw [hm1]
  rw [sph_term_zero 3 (2) (-3 * c1 - 3 * c2 + 2 * (-c1 - c2)) p]
  have hp1 := sph_term_pos 3 1 (by norm_num) (by norm_num) (K := 6) (s := 1) (by norm_num) (by norm_num)
    (by norm_num [Nat.factorial]) (1) ((-c3 - c4) + c3 - 4 * c4) p
  rw [show (((1 : Nat) : Int)) = 1 from rfl] at hp1
  rw [hp1]
  have hp2 := sph_term_pos 3 2 (by norm_num) (by norm_num) (K := 15) (s := 1/2) (by norm_num) (by norm_num)
    (by norm_num [Nat.factorial]) (2) (c1 - c2) p
  rw [show (((2 : Nat) : Int)) = 2 from rfl] at hp2
  rw [hp2]
  have hp3 := sph_term_pos 3 3 (by norm_num) (by norm_num) (K := 10) (s := 1/6) (by norm_num) (by norm_num)
    (by norm_num [Nat.factorial]) (1) (-(-c3 - c4) + 3 * c3) p
  rw [show (((3 : Nat) : Int)) = 3 from rfl] at hp3
  rw [hp3]
  rw [monos_3]
  simp only [List.map_cons, List.map_nil, List.sum_cons, List.sum_nil, List.prod_cons, List.prod_nil, selVal, List.getD_cons_zero,
    List.getD_cons_succ, coord, zPoly_3_0, zPoly_3_1, zPoly_3_2, zPoly_3_3,
    (cpow_1 _ _).1, (cpow_1 _ _).2, (cpow_2 _ _).1, (cpow_2 _ _).2, (cpow_3 _ _).1, (cpow_3 _ _).2]
  norm_num [Nat.factorial]
  ring

theorem sph_sum_4 (c0 c1 c2 c3 c4 c5 c6 c7 c8 : ℝ) (p : V3) : taylorTerm 4 (entry (fullOf 4 [c0, c1, c2, c3, c4, c5, c6, c7, c8])) p =
    sphFactor 4 * (4 * √35 * (c0 - c4)) * solidY 4 (-4) p
      + sphFactor 4 * (2 * √70 * (-3 * (-c6 - c8) + c6)) * solidY 4 (-3) p
      + sphFactor 4 * (4 * √5 * (-c0 - c4 + 6 * (-c4 - c0))) * solidY 4 (-2) p
      + sphFactor 4 * (2 * √10 * (3 * (-c6 - c8) + 3 * c6 - 4 * c8)) * solidY 4 (-1) p
      + sphFactor 4 * (1 * (3 * (-c2 - c3) + 6 * c2 - 24 * c3 + 3 * (-c2 - c7) - 24 * c7 + 8 * (-c7 - c3))) * solidY 4 0 p
      + sphFactor 4 * (2 * √10 * (3 * c1 + 3 * (-c1 - c5) - 4 * c5)) * solidY 4 1 p
      + sphFactor 4 * (2 * √5 * (-(-c2 - c3) + 6 * c3 + (-c2 - c7) - 6 * c7)) * solidY 4 2 p
      + sphFactor 4 * (2 * √70 * (-c1 + 3 * (-c1 - c5))) * solidY 4 3 p
      + sphFactor 4 * (1 * √35 * ((-c2 - c3) - 6 * c2 + (-c2 - c7))) * solidY 4 4 p := by
  rw [taylorTerm_full 4 (by norm_num)]
  have hm4 := sph_term_neg 4 4 (by norm_num) (by norm_num) (K := 35) (s := 1/24) (by norm_num) (by norm_num)
    (by norm_num [Nat.factorial]) (4) (c0 - c4) p
  rw [show (-((4 : Nat) : Int)) = -4 from rfl] at hm4
  rw [hm4]
  have hm3 := sph_term_neg 4 3 (by norm_num) (by norm_num) (K := 70) (s := 1/6) (by norm_num) (by norm_num)
    (by norm_num [Nat.factorial]) (2) (-3 * (-c6 - c8) + c6) p
  rw [show (-((3 : Nat) : Int)) = -3 from rfl] at hm3
  rw [hm3]
  have hm2 := sph_term_neg 4 2 (by norm_num) (by norm_num) (K := 5) (s := 1/6) (by norm_num) (by norm_num)
    (by norm_num [Nat.factorial]) (4) (-c0 - c4 + 6 * (-c4 - c0)) p
  rw [show (-((2 : Nat) : Int)) = -2 from rfl] at hm2
  rw [hm2]
  have hm1 := sph_term_neg 4 1 (by norm_num) (by norm_num) (K := 10) (s := 1) (by norm_num) (by norm_num)
    (by norm_num [Nat.factorial]) (2) (3 * (-c6 - c8) + 3 * c6 - 4 * c8) p
  rw [show (-((1 : Nat) : Int)) = -1 from rfl] at hm1
  rw [hm1]
  rw [sph_term_zero 4 (1) (3 * (-c2 - c3) + 6 * c2 - 24 * c3 + 3 * (-c2 - c7) - 24 * c7 + 8 * (-c7 - c3)) p]
  have hp1 := sph_term_pos 4 1 (by norm_num) (by norm_num) (K := 10) (s := 1) (by norm_num) (by norm_num)
    (by norm_num [Nat.factorial]) (2) (3 * c1 + 3 * (-c1 - c5) - 4 * c5) p
  rw [show (((1 : Nat) : Int)) = 1 from rfl] at hp1
  rw [hp1]
  have hp2 := sph_term_pos 4 2 (by norm_num) (by norm_num) (K := 5) (s := 1/6) (by norm_num) (by norm_num)
    (by norm_num [Nat.factorial]) (2) (-(-c2 - c3) + 6 * c3 + (-c2 - c7) - 6 * c7) p
  rw [show (((2 : Nat) : Int)) = 2 from rfl] at hp2
  rw [hp2]
  have hp3 := sph_term_pos 4 3 (by norm_num) (by norm_num) (K := 70) (s := 1/6) (by norm_num) (by norm_num)
    (by norm_num [Nat.factorial]) (2) (-c1 + 3 * (-c1 - c5)) p
  rw [show (((3 : Nat) : Int)) = 3 from rfl] at hp3
  rw [hp3]
  have hp4 := sph_term_pos 4 4 (by norm_num) (by norm_num) (K := 35) (s := 1/24) (by norm_num) (by norm_num)
    (by norm_num [Nat.factorial]) (1) ((-c2 - c3) - 6 * c2 + (-c2 - c7)) p
  rw [show (((4 : Nat) : Int)) = 4 from rfl] at hp4
  rw [hp4]
  rw [monos_4]
  simp only [List.map_cons, List.map_nil, List.sum_cons, List.sum_nil, List.prod_cons, List.prod_nil, selVal, List.getD_cons_zero,
    List.getD_cons_succ, coord, zPoly_4_0, zPoly_4_1, zPoly_4_2, zPoly_4_3, zPoly_4_4,
    (cpow_1 _ _).1, (cpow_1 _ _).2, (cpow_2 _ _).1, (cpow_2 _ _).2, (cpow_3 _ _).1, (cpow_3 _ _).2, (cpow_4 _ _).1, (cpow_4 _ _).2]
  norm_num [Nat.factorial]
  ring

theorem sph_sum_5 (c0 c1 c2 c3 c4 c5 c6 c7 c8 c9 c10 : ℝ) (p : V3) : taylorTerm 5 (entry (fullOf 5 [c0, c1, c2, c3, c4, c5, c6, c7, c8, c9, c10])) p =
    sphFactor 5 * (3 * √14 * (-5 * (-c3 - c5) + 10 * c3 - (-c3 - c9))) * solidY 5 (-5) p
      + sphFactor 5 * (24 * √35 * (c1 - c7)) * solidY 5 (-4) p
      + sphFactor 5 * (1 * √70 * (3 * (-c3 - c5) + 2 * c3 - 24 * c5 - (-c3 - c9) + 8 * c9)) * solidY 5 (-3) p
      + sphFactor 5 * (8 * √105 * (-c1 - c7 + 2 * (-c1 - c7))) * solidY 5 (-2) p
      + sphFactor 5 * (2 * √15 * (-(-c3 - c5) - 2 * c3 + 12 * c5 - (-c3 - c9) + 12 * c9 - 8 * (-c5 - c9))) * solidY 5 (-1) p
      + sphFactor 5 * (2 * (15 * (-c4 - c6) + 30 * c4 - 40 * c6 + 15 * (-c4 - c10) - 40 * c10 + 8 * (-c10 - c6))) * solidY 5 0 p
      + sphFactor 5 * (2 * √15 * (-(-c0 - c2) - 2 * c0 + 12 * c2 - (-c0 - c8) + 12 * c8 - 8 * (-c8 - c2))) * solidY 5 1 p
      + sphFactor 5 * (4 * √105 * (-(-c4 - c6) + 2 * c6 + (-c4 - c10) - 2 * c10)) * solidY 5 2 p
      + sphFactor 5 * (1 * √70 * ((-c0 - c2) - 2 * c0 - 8 * c2 - 3 * (-c0 - c8) + 24 * c8)) * solidY 5 3 p
      + sphFactor 5 * (6 * √35 * ((-c4 - c6) - 6 * c4 + (-c4 - c10))) * solidY 5 4 p
      + sphFactor 5 * (3 * √14 * (-(-c0 - c2) + 10 * c0 - 5 * (-c0 - c8))) * solidY 5 5 p := by
  rw [taylorTerm_full 5 (by norm_num)]
  have hm5 := sph_term_neg 5 5 (by norm_num) (by norm_num) (K := 14) (s := 1/360) (by norm_num) (by norm_num)
    (by norm_num [Nat.factorial]) (3) (-5 * (-c3 - c5) + 10 * c3 - (-c3 - c9)) p
  rw [show (-((5 : Nat) : Int)) = -5 from rfl] at hm5
  rw [hm5]
  have hm4 := sph_term_neg 5 4 (by norm_num) (by norm_num) (K := 35) (s := 1/72) (by norm_num) (by norm_num)
    (by norm_num [Nat.factorial]) (24) (c1 - c7) p
  rw [show (-((4 : Nat) : Int)) = -4 from rfl] at hm4
  rw [hm4]
  have hm3 := sph_term_neg 5 3 (by norm_num) (by norm_num) (K := 70) (s := 1/12) (by norm_num) (by norm_num)
    (by norm_num [Nat.factorial]) (1) (3 * (-c3 - c5) + 2 * c3 - 24 * c5 - (-c3 - c9) + 8 * c9) p
  rw [show (-((3 : Nat) : Int)) = -3 from rfl] at hm3
  rw [hm3]
  have hm2 := sph_term_neg 5 2 (by norm_num) (by norm_num) (K := 105) (s := 1/2) (by norm_num) (by norm_num)
    (by norm_num [Nat.factorial]) (8) (-c1 - c7 + 2 * (-c1 - c7)) p
  rw [show (-((2 : Nat) : Int)) = -2 from rfl] at hm2
  rw [hm2]
  have hm1 := sph_term_neg 5 1 (by norm_num) (by norm_num) (K := 15) (s := 1) (by norm_num) (by norm_num)
    (by norm_num [Nat.factorial]) (2) (-(-c3 - c5) - 2 * c3 + 12 * c5 - (-c3 - c9) + 12 * c9 - 8 * (-c5 - c9)) p
  rw [show (-((1 : Nat) : Int)) = -1 from rfl] at hm1
  rw [hm1]
  rw [sph_term_zero 5 (2) (15 * (-c4 - c6) + 30 * c4 - 40 * c6 + 15 * (-c4 - c10) - 40 * c10 + 8 * (-c10 - c6)) p]
  have hp1 := sph_term_pos 5 1 (by norm_num) (by norm_num) (K := 15) (s := 1) (by norm_num) (by norm_num)
    (by norm_num [Nat.factorial]) (2) (-(-c0 - c2) - 2 * c0 + 12 * c2 - (-c0 - c8) + 12 * c8 - 8 * (-c8 - c2)) p
  rw [show (((1 : Nat) : Int)) = 1 from rfl] at hp1
  rw [hp1]
  have hp2 := sph_term_pos 5 2 (by norm_num) (by norm_num) (K := 105) (s := 1/2) (by norm_num) (by norm_num)
    (by norm_num [Nat.factorial]) (4) (-(-c4 - c6) + 2 * c6 + (-c4 - c10) - 2 * c10) p
  rw [show (((2 : Nat) : Int)) = 2 from rfl] at hp2
  rw [hp2]
  have hp3 := sph_term_pos 5 3 (by norm_num) (by norm_num) (K := 70) (s := 1/12) (by norm_num) (by norm_num)
    (by norm_num [Nat.factorial]) (1) ((-c0 - c2) - 2 * c0 - 8 * c2 - 3 * (-c0 - c8) + 24 * c8) p
  rw [show (((3 : Nat) : Int)) = 3 from rfl] at hp3
  rw [hp3]
  have hp4 := sph_term_pos 5 4 (by norm_num) (by norm_num) (K := 35) (s := 1/72) (by norm_num) (by norm_num)
    (by norm_num [Nat.factorial]) (6) ((-c4 - c6) - 6 * c4 + (-c4 - c10)) p
  rw [show (((4 : Nat) : Int)) = 4 from rfl] at hp4
  rw [hp4]
  have hp5 := sph_term_pos 5 5 (by norm_num) (by norm_num) (K := 14) (s := 1/360) (by norm_num) (by norm_num)
    (by norm_num [Nat.factorial]) (3) (-(-c0 - c2) + 10 * c0 - 5 * (-c0 - c8)) p
  rw [show (((5 : Nat) : Int)) = 5 from rfl] at hp5
  rw [hp5]
  rw [monos_5]
  simp only [List.map_cons, List.map_nil, List.sum_cons, List.sum_nil, List.prod_cons, List.prod_nil, selVal, List.getD_cons_zero,
    List.getD_cons_succ, coord, zPoly_5_0, zPoly_5_1, zPoly_5_2, zPoly_5_3, zPoly_5_4, zPoly_5_5,
    (cpow_1 _ _).1, (cpow_1 _ _).2, (cpow_2 _ _).1, (cpow_2 _ _).2, (cpow_3 _ _).1, (cpow_3 _ _).2, (cpow_4 _ _).1, (cpow_4 _ _).2, (cpow_5 _ _).1, (cpow_5 _ _).2]
  norm_num [Nat.factorial]
  ring

end Electrode
