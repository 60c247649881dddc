import Verif.Lemmas.RoundPoint
import Mathlib.Analysis.SpecialFunctions.Trigonometric.ArctanDeriv
import Mathlib.Analysis.SpecialFunctions.Trigonometric.Arctan
import Mathlib.Analysis.Calculus.MeanValue

/-
Rounding errors of the potential of polygons.
-/
namespace Electrode
namespace Rounding
open Spec Real

/-! ### The arctangent -/

theorem arctan_lip (x y : ℝ) : |arctan x - arctan y| ≤ |x - y| := by
  have := Convex.norm_image_sub_le_of_norm_deriv_le (f := arctan) (C := 1) (s := Set.univ) (x := y) (y := x)
    (fun _ _ => differentiableAt_arctan _) (fun t _ => by
      rw [Real.deriv_arctan, Real.norm_eq_abs, abs_of_nonneg (by positivity), div_le_one (by positivity)]
      nlinarith [sq_nonneg t]) convex_univ (Set.mem_univ _) (Set.mem_univ _)
  simpa using this

/-- a relative error of the argument changes the angle by at most half of it -/
theorem arctan_rel {b : ℝ} (hb : 1 ≤ b) {k : Nat} {x y : ℝ} (h : Rel b k x y) : |arctan x - arctan y| ≤ (b ^ k - 1) / 2 := by
  obtain ⟨t, rfl, h1, h2⟩ := h
  have ht := Rel.pos_factor hb h1
  have hk := pow_ge hb k
  -- the function `s ↦ arctan (y * exp s)` has slope at most 1/2
  have hL : |arctan (y * exp (log t)) - arctan (y * exp 0)| ≤ 1 / 2 * |log t - 0| := by
    have := Convex.norm_image_sub_le_of_norm_deriv_le (f := fun s : ℝ => arctan (y * exp s)) (C := 1 / 2) (s := Set.univ) (x := 0)
      (y := log t) (fun s _ => ((differentiableAt_exp.const_mul y).arctan)) (fun s _ => by
        have hd : HasDerivAt (fun s : ℝ => arctan (y * exp s)) (1 / (1 + (y * exp s) ^ 2) * (y * exp s)) s :=
          ((hasDerivAt_exp s).const_mul y).arctan
        rw [hd.deriv, Real.norm_eq_abs, abs_mul, abs_of_nonneg (by positivity : 0 ≤ 1 / (1 + (y * exp s) ^ 2)), one_div_mul_eq_div,
          div_le_iff₀ (by positivity)]
        nlinarith [sq_abs (y * exp s), sq_nonneg (|y * exp s| - 1)]) convex_univ (Set.mem_univ _) (Set.mem_univ _)
    simpa using this
  rw [exp_log ht, exp_zero, mul_one, sub_zero] at hL
  have hlog : |log t| ≤ b ^ k - 1 := by
    rw [abs_le]
    constructor
    · have h3 : log (t * b ^ k) = log t + log (b ^ k) := Real.log_mul ht.ne' (by positivity)
      have h4 : 0 ≤ log (t * b ^ k) := log_nonneg h1
      have h5 := log_le_sub_one_of_pos (by positivity : 0 < b ^ k)
      linarith
    · exact (log_le_sub_one_of_pos ht).trans (by linarith)
  linarith

/-! ### One side -/

/-- how many roundings the variables of `edge_potential_expr` carry -/
def edgeCost : Nat → Nat
  | 0 => 1 | 1 => 1 | 2 => 1 | 3 => 1 | 4 => 15 | 5 => 15 | 6 => 6 | 7 => 12 | _ => 0

/-- the degrees of the variables -/
def edgeDeg : Nat → Nat
  | 6 => 2 | _ => 1

theorem absEval_deg (r : ℝ) (w : Nat → Nat) (e : PExpr) (d : Nat) (h : e.homDeg w = some d) :
    absEval (fun i => r ^ w i) e = wt e * r ^ d := by
  induction e generalizing d with
  | c n => simp [PExpr.homDeg] at h; subst h; simp [absEval, wt]
  | v i => simp [PExpr.homDeg] at h; subst h; simp [absEval, wt]
  | neg a ih => exact ih d h
  | add a b iha ihb =>
    simp only [PExpr.homDeg] at h
    split at h
    · split at h
      · rename_i m n h1 h2 hmn
        cases h; subst hmn
        simp only [absEval, wt, iha _ h1, ihb _ h2]; push_cast; ring
      · cases h
    · cases h
  | sub a b iha ihb =>
    simp only [PExpr.homDeg] at h
    split at h
    · split at h
      · rename_i m n h1 h2 hmn
        cases h; subst hmn
        simp only [absEval, wt, iha _ h1, ihb _ h2]; push_cast; ring
      · cases h
    · cases h
  | mul a b iha ihb =>
    simp only [PExpr.homDeg] at h
    split at h
    · rename_i m n h1 h2
      cases h
      simp only [absEval, wt, iha _ h1, ihb _ h2]; push_cast; ring
    · cases h
  | pow a n ih =>
    simp only [PExpr.homDeg] at h
    split at h
    · rename_i m h1
      cases h
      simp only [absEval, wt, ih _ h1]; push_cast; rw [mul_pow, pow_mul]
    · cases h

def edgeWt : Nat → Nat
  | 1 => 2 | 2 => 80 | 3 => 1976 | 4 => 82212 | 5 => 4257160 | _ => 0

theorem edge_table : ∀ d ≤ 5, ∀ e ∈ edgeNum d, e.homDeg edgeDeg = some (if d = 1 then 2 else 5 * d - 2) ∧ wt e ≤ edgeWt d ∧
    cost edgeCost e + (2 * d - 1) * 31 + 22 ≤ 700 := by decide +kernel

/-- the quantities of one side: what is computed and what is meant -/
structure Side (u : ℝ) (x1 x2 y1 y2 r1 r2 z x1' x2' y1' y2' r1' r2' z' : ℝ) : Prop where
  x1 : Rel (1 - u)⁻¹ 1 x1 x1'
  x2 : Rel (1 - u)⁻¹ 1 x2 x2'
  y1 : Rel (1 - u)⁻¹ 1 y1 y1'
  y2 : Rel (1 - u)⁻¹ 1 y2 y2'
  z : Rel (1 - u)⁻¹ 12 z z'
  r1 : Rel (1 - u)⁻¹ 15 r1 r1'
  r2 : Rel (1 - u)⁻¹ 15 r2 r2'
  z0 : z' ≠ 0
  d1 : r1' = √(x1' ^ 2 + y1' ^ 2 + z' ^ 2)
  d2 : r2' = √(x2' ^ 2 + y2' ^ 2 + z' ^ 2)

namespace Side
variable {o : FloatOps} {u : ℝ} (ho : Accurate o u) {x1 x2 y1 y2 r1 r2 z x1' x2' y1' y2' r1' r2' z' : ℝ}
  (s : Side u x1 x2 y1 y2 r1 r2 z x1' x2' y1' y2' r1' r2' z')
include s

theorem q1 : r1' ^ 2 = x1' ^ 2 + y1' ^ 2 + z' ^ 2 := by rw [s.d1]; exact Real.sq_sqrt (by positivity)
theorem q2 : r2' ^ 2 = x2' ^ 2 + y2' ^ 2 + z' ^ 2 := by rw [s.d2]; exact Real.sq_sqrt (by positivity)
theorem p1 : 0 < r1' := by
  have := s.z0
  rw [s.d1]; exact Real.sqrt_pos.2 (by positivity)
theorem p2 : 0 < r2' := by
  have := s.z0
  rw [s.d2]; exact Real.sqrt_pos.2 (by positivity)

omit s in
theorem cauchy {r1' r2' a1 b1 a2 b2 : ℝ} (p1 : 0 ≤ r1') (p2 : 0 ≤ r2') (h1 : a1 ^ 2 + b1 ^ 2 ≤ r1' ^ 2)
    (h2 : a2 ^ 2 + b2 ^ 2 ≤ r2' ^ 2) : a1 * a2 + b1 * b2 ≤ r1' * r2' := by
  refine (le_abs_self _).trans (abs_le_of_sq_le_sq ?_ (by positivity))
  calc (a1 * a2 + b1 * b2) ^ 2 ≤ (a1 ^ 2 + b1 ^ 2) * (a2 ^ 2 + b2 ^ 2) := by nlinarith [sq_nonneg (a1 * b2 - b1 * a2)]
    _ ≤ r1' ^ 2 * r2' ^ 2 := by gcongr
    _ = _ := by ring

theorem h1 : |x1'| ^ 2 + |y1'| ^ 2 ≤ r1' ^ 2 := by rw [s.q1, sq_abs, sq_abs]; nlinarith [sq_nonneg z']
theorem h2 : |x2'| ^ 2 + |y2'| ^ 2 ≤ r2' ^ 2 := by rw [s.q2, sq_abs, sq_abs]; nlinarith [sq_nonneg z']
theorem z1 : |z'| ≤ r1' := abs_le_of_sq_le_sq (by rw [s.q1]; nlinarith [sq_nonneg x1', sq_nonneg y1']) s.p1.le
theorem z2 : |z'| ≤ r2' := abs_le_of_sq_le_sq (by rw [s.q2]; nlinarith [sq_nonneg x2', sq_nonneg y2']) s.p2.le

include ho

/-- the square of the length -/
theorem l2_app : App (1 - u)⁻¹ 6 (o.add (o.pow (o.sub x1 x2) 2) (o.pow (o.sub y1 y2) 2)) ((x1' - x2') ^ 2 + (y1' - y2') ^ 2)
    ((r1' + r2') ^ 2) := by
  have hb := hbase ho
  have diff : ∀ {a b a' b' : ℝ}, Rel (1 - u)⁻¹ 1 a a' → Rel (1 - u)⁻¹ 1 b b' →
      App (1 - u)⁻¹ 5 (o.pow (o.sub a b) 2) ((a' - b') ^ 2) ((|a'| + |b'|) ^ 2) := fun ha hb' =>
    ((((ha.app hb le_rfl).sub hb (hb'.app hb le_rfl)).round hb (rel_sub ho _ _)).pow hb 2).round hb (rel_pow ho _ _)
  refine (((diff s.x1 s.x2).add hb (diff s.y1 s.y2)).round hb (rel_add ho _ _)).mono hb le_rfl ?_
  have := cauchy s.p1.le s.p2.le s.h1 s.h2
  nlinarith [s.h1, s.h2]

theorem sum_rel : Rel (1 - u)⁻¹ 16 (o.add r1 r2) (r1' + r2') :=
  (rel_add ho _ _).trans (hbase ho) (s.r1.add (hbase ho) s.p1.le s.p2.le s.r2)

theorem prod_rel : Rel (1 - u)⁻¹ 31 (o.mul r1 r2) (r1' * r2') := (rel_mul ho _ _).trans (hbase ho) (s.r1.mul (hbase ho) s.r2)

/-- the quantity that vanishes on the side -/
theorem gap_rel {κ : Nat} (hκ : (r1' + r2') ^ 2 ≤ κ * ((r1' + r2') ^ 2 - ((x1' - x2') ^ 2 + (y1' - y2') ^ 2)))
    (hu : 272 * κ * u ≤ 1) (hu' : 34 * u ≤ 1 / 2) :
    0 < (r1' + r2') ^ 2 - ((x1' - x2') ^ 2 + (y1' - y2') ^ 2) ∧
    Rel (1 - u)⁻¹ (136 * κ) (o.sub (o.pow (o.add r1 r2) 2) (o.add (o.pow (o.sub x1 x2) 2) (o.pow (o.sub y1 y2) 2)))
      ((r1' + r2') ^ 2 - ((x1' - x2') ^ 2 + (y1' - y2') ^ 2)) := by
  have hb := hbase ho
  have hp1 := s.p1
  have hp2 := s.p2
  have hpos : 0 < (r1' + r2') ^ 2 - ((x1' - x2') ^ 2 + (y1' - y2') ^ 2) := by
    have : 0 < (r1' + r2') ^ 2 := by positivity
    by_contra hn
    have := mul_nonpos_of_nonneg_of_nonpos (Nat.cast_nonneg κ : (0 : ℝ) ≤ κ) (not_lt.1 hn)
    linarith
  refine ⟨hpos, ?_⟩
  have hsq : App (1 - u)⁻¹ 33 (o.pow (o.add r1 r2) 2) ((r1' + r2') ^ 2) ((r1' + r2') ^ 2) :=
    ((rel_pow ho _ _).trans hb ((s.sum_rel ho).pow hb 2)).app hb (le_of_eq (abs_of_nonneg (by positivity)))
  have h := ((hsq.sub hb ((s.l2_app ho).mono hb (by norm_num) le_rfl)).round hb (rel_sub ho _ _))
  have hg := growth ho.nonneg ho.lt_one (k := 34) (by push_cast; exact hu')
  have := h.rel hb (2 * κ) (by rw [abs_of_pos hpos]; push_cast; linarith) (by
    have hκ0 : (0 : ℝ) ≤ 2 * (2 * κ) := by positivity
    have := mul_le_mul_of_nonneg_left hg hκ0
    push_cast at this ⊢
    linarith)
  rwa [show 2 * (2 * κ) * (33 + 1) = 136 * κ by ring] at this

/-- the factor of all components -/
theorem norm_rel {κ : Nat} (hκ : (r1' + r2') ^ 2 ≤ κ * ((r1' + r2') ^ 2 - ((x1' - x2') ^ 2 + (y1' - y2') ^ 2)))
    (hu : 272 * κ * u ≤ 1) (hu' : 34 * u ≤ 1 / 2) (d : Nat) (hd : 1 ≤ d) (hd5 : d ≤ 5) (a : ℝ) :
    Rel (1 - u)⁻¹ ((2 * d - 1) * 31 + 21 + d * (136 * κ))
      (flEdgeNorm o d r1 r2 (o.add (o.pow (o.sub x1 x2) 2) (o.pow (o.sub y1 y2) 2)) a)
      (edgeNorm d r1' r2' ((x1' - x2') ^ 2 + (y1' - y2') ^ 2) a) := by
  have hb := hbase ho
  obtain ⟨hpos, hs⟩ := s.gap_rel ho hκ hu hu'
  have hr := s.prod_rel ho
  have hr0 : r1' * r2' ≠ 0 := (mul_pos s.p1 s.p2).ne'
  set S := o.sub (o.pow (o.add r1 r2) 2) (o.add (o.pow (o.sub x1 x2) 2) (o.pow (o.sub y1 y2) 2)) with hS
  set S' := (r1' + r2') ^ 2 - ((x1' - x2') ^ 2 + (y1' - y2') ^ 2) with hS'
  have hpi : o.pi ≠ 0 := (rel_pi ho).ne_zero hb Real.pi_ne_zero
  have ha := Rel.refl hb a 0
  by_cases h1 : d = 1
  · subst h1
    have hm : Rel (1 - u)⁻¹ 17 (o.mul a (o.add r1 r2)) (a * (r1' + r2')) :=
      ((rel_mul ho _ _).trans hb (ha.mul hb (s.sum_rel ho))).mono hb (by norm_num)
    have hrs : Rel (1 - u)⁻¹ (32 + 136 * κ) (o.mul (o.mul r1 r2) S) (r1' * r2' * S') :=
      ((rel_mul ho _ _).trans hb (hr.mul hb hs)).mono hb (by omega)
    have hq := (rel_div ho (o.mul a (o.add r1 r2)) (hrs.ne_zero hb (mul_ne_zero hr0 hpos.ne'))).trans hb (hm.div hb hrs)
    exact ((rel_div ho _ hpi).trans hb (hq.div hb (rel_pi ho))).mono hb (by omega)
  · have key : ∀ m n : Nat, Rel (1 - u)⁻¹ (m * 31 + 21 + n * (136 * κ))
        (o.div (o.div (o.div a (o.pow (o.mul r1 r2) m)) (o.pow S n)) o.pi) (a / (r1' * r2') ^ m / S' ^ n / π) := by
      intro m n
      have e1 := (rel_pow ho (o.mul r1 r2) m).trans hb (hr.pow hb m)
      have e2 := (rel_pow ho S n).trans hb (hs.pow hb n)
      have e3 := (rel_div ho a (e1.ne_zero hb (pow_ne_zero _ hr0))).trans hb (ha.div hb e1)
      have e4 := (rel_div ho _ (e2.ne_zero hb (pow_ne_zero _ hpos.ne'))).trans hb (e3.div hb e2)
      exact ((rel_div ho _ hpi).trans hb (e4.div hb (rel_pi ho))).mono hb (by omega)
    interval_cases d
    · exact absurd rfl h1
    · exact key 3 2
    · exact key 5 3
    · exact key 7 4
    · exact key 9 5

theorem deriv_app {κ : Nat} (hκ : (r1' + r2') ^ 2 ≤ κ * ((r1' + r2') ^ 2 - ((x1' - x2') ^ 2 + (y1' - y2') ^ 2)))
    (hu : 272 * κ * u ≤ 1) (hu' : 34 * u ≤ 1 / 2) (c : Bool) (d : Nat) (hd : 1 ≤ d) (hd5 : d ≤ 5) (a : ℝ) (i : Nat)
    (hi : i < (edgeNum d).length) :
    App (1 - u)⁻¹ (700 * (κ + 1))
      ((flEdgeTerm o c d x1 x2 y1 y2 r1 r2 (o.add (o.pow (o.sub x1 x2) 2) (o.pow (o.sub y1 y2) 2)) z a).getD i 0)
      ((edgeTerm d x1' x2' y1' y2' r1' r2' ((x1' - x2') ^ 2 + (y1' - y2') ^ 2) z' a).getD i 0)
      (sideSize d a r1' r2' √((x1' - x2') ^ 2 + (y1' - y2') ^ 2)) := by
  have hb := hbase ho
  obtain ⟨hpos, -⟩ := s.gap_rel ho hκ hu hu'
  have hn := s.norm_rel ho hκ hu hu' d hd hd5 a
  have hp1 := s.p1
  have hp2 := s.p2
  have hz1 := s.z1
  set l2 := o.add (o.pow (o.sub x1 x2) 2) (o.pow (o.sub y1 y2) 2) with hl2
  set l2' := (x1' - x2') ^ 2 + (y1' - y2') ^ 2 with hl2'
  have hx1 : |x1'| ≤ r1' := abs_le_of_sq_le_sq (by rw [s.q1]; nlinarith [sq_nonneg z', sq_nonneg y1']) hp1.le
  have hy1 : |y1'| ≤ r1' := abs_le_of_sq_le_sq (by rw [s.q1]; nlinarith [sq_nonneg z', sq_nonneg x1']) hp1.le
  have hx2 : |x2'| ≤ r2' := abs_le_of_sq_le_sq (by rw [s.q2]; nlinarith [sq_nonneg z', sq_nonneg y2']) hp2.le
  have hy2 : |y2'| ≤ r2' := abs_le_of_sq_le_sq (by rw [s.q2]; nlinarith [sq_nonneg z', sq_nonneg x2']) hp2.le
  have henv : ∀ j, App (1 - u)⁻¹ (edgeCost j) (edgeEnv x1 x2 y1 y2 r1 r2 l2 z j) (edgeEnv x1' x2' y1' y2' r1' r2' l2' z' j)
      ((r1' + r2') ^ edgeDeg j) := by
    intro j
    match j with
    | 0 => exact s.x1.app hb (by simp only [edgeEnv, edgeDeg]; linarith)
    | 1 => exact s.x2.app hb (by simp only [edgeEnv, edgeDeg]; linarith)
    | 2 => exact s.y1.app hb (by simp only [edgeEnv, edgeDeg]; linarith)
    | 3 => exact s.y2.app hb (by simp only [edgeEnv, edgeDeg]; linarith)
    | 4 => exact s.r1.app hb (by simp only [edgeEnv, edgeDeg, abs_of_pos hp1]; linarith)
    | 5 => exact s.r2.app hb (by simp only [edgeEnv, edgeDeg, abs_of_pos hp2]; linarith)
    | 6 => exact s.l2_app ho
    | 7 => exact s.z.app hb (by simp only [edgeEnv, edgeDeg]; linarith)
    | n + 8 => exact (Rel.refl hb 0 _).app hb (by simp only [abs_zero]; positivity)
  have hmem : (edgeNum d)[i] ∈ edgeNum d := List.getElem_mem hi
  set e := (edgeNum d)[i] with he
  obtain ⟨t1, t2, t3⟩ := edge_table d hd5 e hmem
  have h1 := ((flEval_app ho le_rfl henv e).mul hb (hn.app hb le_rfl)).round hb (rel_mul ho _ _)
  rw [absEval_deg _ _ e _ t1] at h1
  have e1 : (flEdgeTerm o c d x1 x2 y1 y2 r1 r2 l2 z a).getD i 0
      = o.mul (e.flEval o (edgeEnv x1 x2 y1 y2 r1 r2 l2 z)) (flEdgeNorm o d r1 r2 l2 a) := by
    obtain ⟨n, rfl⟩ : ∃ n, d = n + 1 := ⟨d - 1, by omega⟩
    simp [flEdgeTerm, List.getD_eq_getElem?_getD, hi, he]
  have e2 : (edgeTerm d x1' x2' y1' y2' r1' r2' l2' z' a).getD i 0
      = e.eval (edgeEnv x1' x2' y1' y2' r1' r2' l2' z') * edgeNorm d r1' r2' l2' a := by
    obtain ⟨n, rfl⟩ : ∃ n, d = n + 1 := ⟨d - 1, by omega⟩
    simp [edgeTerm, List.getD_eq_getElem?_getD, hi, he]
  rw [e1, e2]
  have hdκ : d * (136 * κ) ≤ 700 * κ := by nlinarith
  refine h1.mono hb (by rw [mul_add 700 κ 1]; omega) ?_
  have h3 : (wt e : ℝ) ≤ edgeWt d := by exact_mod_cast t2
  rw [sideSize, if_neg (show ¬ d = 0 by omega), Real.sq_sqrt (by positivity)]
  set S := (r1' + r2') ^ 2 - l2' with hS
  have fin : ∀ n : ℝ, 0 ≤ n → wt e * n ≤ edgeWt d * n := fun n hn => mul_le_mul_of_nonneg_right h3 hn
  rw [mul_assoc]
  refine (fin _ (by positivity)).trans (le_of_eq ?_)
  clear hn h1 e1 e2 h3 fin t1 t2 t3 he hmem
  clear e
  have hsum := abs_of_pos (add_pos hp1 hp2)
  interval_cases d
  all_goals
    simp only [edgeNorm, edgeWt, ← hS, abs_div, abs_mul, abs_of_pos hp1, abs_of_pos hp2, abs_of_pos hpos, abs_of_pos Real.pi_pos,
      hsum, abs_pow]
    norm_num
    field_simp

/-- the angle of one side -/
theorem pot_app {κ : Nat} (hκ : (r1' + r2') ^ 2 ≤ κ * ((r1' + r2') ^ 2 - ((x1' - x2') ^ 2 + (y1' - y2') ^ 2)))
    (hu : 408 * κ * u ≤ 1) (hu' : 34 * u ≤ 1 / 2) (c : Bool) (a l2 l2' : ℝ) :
    App (1 - u)⁻¹ (700 * (κ + 1)) ((flEdgeTerm o c 0 x1 x2 y1 y2 r1 r2 l2 z a).getD 0 0)
      ((edgeTerm 0 x1' x2' y1' y2' r1' r2' l2' z' a).getD 0 0) (2 * |a| / π) := by
  have hb := hbase ho
  have hu0 := ho.nonneg
  have hp1 := s.p1
  have hp2 := s.p2
  have hz1 := s.z1
  have hz2 := s.z2
  have hz0 := abs_pos.2 s.z0
  set b := (1 - u)⁻¹ with hbdef
  -- the cross product
  set C := o.sub (o.mul x1 y2) (o.mul y1 x2) with hC
  set C' := x1' * y2' - y1' * x2' with hC'
  have hCapp : App b 4 C C' (r1' * r2') := by
    have e1 := ((rel_mul ho _ _).trans hb (s.x1.mul hb s.y2)).app hb le_rfl
    have e2 := ((rel_mul ho _ _).trans hb (s.y1.mul hb s.x2)).app hb le_rfl
    refine ((e1.sub hb e2).round hb (rel_sub ho _ _)).mono hb (by norm_num) ?_
    rw [abs_mul, abs_mul]
    exact cauchy hp1.le hp2.le s.h1 (by linarith [s.h2])
  -- the denominator
  set D := o.add (o.add (o.add (o.mul r1 r2) (o.mul x1 x2)) (o.mul y1 y2)) (o.mul |z| (o.add (o.add |z| r1) r2)) with hD
  set D' := r1' * r2' + x1' * x2' + y1' * y2' + |z'| * (|z'| + r1' + r2') with hD'
  have hzabs : Rel b 12 |z| |z'| := by
    obtain ⟨t, e, h1, h2⟩ := s.z
    exact ⟨t, by rw [e, abs_mul, abs_of_pos (Rel.pos_factor hb h1)], h1, h2⟩
  have hgap : (r1' + r2') ^ 2 - ((x1' - x2') ^ 2 + (y1' - y2') ^ 2) = 2 * (D' - |z'| * (r1' + r2')) := by
    have := s.q1
    have := s.q2
    have := sq_abs z'
    rw [hD']
    nlinarith
  have hκ0 : (0 : ℝ) ≤ κ := Nat.cast_nonneg κ
  have hrr : r1' * r2' ≤ κ * D' / 2 := by
    have h1 : 4 * (r1' * r2') ≤ (r1' + r2') ^ 2 := by nlinarith [sq_nonneg (r1' - r2')]
    have h2 : 0 ≤ κ * (|z'| * (r1' + r2')) := by positivity
    rw [hgap] at hκ
    nlinarith
  have hD0 : 0 < D' := by
    by_contra hn
    have := mul_nonpos_of_nonneg_of_nonpos hκ0 (not_lt.1 hn)
    have := mul_pos hp1 hp2
    linarith
  have hDapp : App b 34 D D' (5 * (r1' * r2')) := by
    have e1 := (s.prod_rel ho).app hb (le_of_eq (abs_of_pos (mul_pos hp1 hp2)))
    have e2 := ((rel_mul ho _ _).trans hb (s.x1.mul hb s.x2)).app hb le_rfl
    have e3 := ((rel_mul ho _ _).trans hb (s.y1.mul hb s.y2)).app hb le_rfl
    have e4 := (rel_add ho _ _).trans hb ((hzabs.mono hb (show 12 ≤ 15 by norm_num)).add hb hz0.le hp1.le s.r1)
    have e5 := (rel_add ho _ _).trans hb (e4.add hb (by positivity) hp2.le (s.r2.mono hb (by norm_num)))
    have e6 := ((rel_mul ho _ _).trans hb (hzabs.mul hb e5)).app hb (le_of_eq (abs_of_nonneg (by positivity)))
    have f1 := (e1.add hb (e2.mono hb (by norm_num) le_rfl)).round hb (rel_add ho _ _)
    have f2 := (f1.add hb (e3.mono hb (by norm_num) le_rfl)).round hb (rel_add ho _ _)
    have f3 := (f2.add hb (e6.mono hb (by norm_num) le_rfl)).round hb (rel_add ho _ _)
    refine f3.mono hb (by norm_num) ?_
    rw [abs_mul, abs_mul]
    have := cauchy hp1.le hp2.le s.h1 s.h2
    have g1 : |z'| * |z'| ≤ r1' * r2' := mul_le_mul hz1 hz2 hz0.le hp1.le
    have g2 : |z'| * r1' ≤ r1' * r2' := by rw [mul_comm r1']; gcongr
    have g3 : |z'| * r2' ≤ r1' * r2' := by gcongr
    nlinarith
  have hg := growth hu0 ho.lt_one (k := 34) (by push_cast; exact hu')
  have hDrel : Rel b (204 * κ) D D' := by
    have := hDapp.rel hb (3 * κ) (by rw [abs_of_pos hD0]; push_cast; nlinarith) (by
      have hκ1 : (0 : ℝ) ≤ 2 * (3 * κ) := by positivity
      have := mul_le_mul_of_nonneg_left hg hκ1
      push_cast at this ⊢
      linarith)
    rwa [show 2 * (3 * κ) * 34 = 204 * κ by ring] at this
  have hDpos : 0 < D := lt_of_le_of_ne (hDrel.nonneg hb hD0.le) (hDrel.ne_zero hb hD0.ne').symm
  have hz : z ≠ 0 := s.z.ne_zero hb s.z0
  have hsign : z / |z| = z' / |z'| := by
    obtain ⟨t, e, h1, h2⟩ := s.z
    have ht := Rel.pos_factor hb h1
    rw [e, abs_mul, abs_of_pos ht]
    field_simp
  have hσ : |z' / (|z'|)| = 1 := by rw [abs_div, abs_abs, div_self hz0.ne']
  -- the quotient
  set num := o.mul z C with hnum
  set den := o.mul |z| D with hden
  have hdr := rel_mul ho |z| D
  have hden0 : 0 < den := lt_of_le_of_ne (hdr.nonneg hb (mul_pos (abs_pos.2 hz) hDpos).le)
    (hdr.ne_zero hb (mul_pos (abs_pos.2 hz) hDpos).ne').symm
  have hq : Rel b (204 * κ + 2) (num / den) (z' / |z'| * C / D') := by
    have e1 := (rel_mul ho z C).div hb hdr
    have e2 : Rel b (0 + 204 * κ) (z * C / (|z| * D)) (z' / |z'| * C / D') := by
      rw [show z * C / (|z| * D) = (z / |z| * C) / D by field_simp, hsign]
      exact (Rel.refl hb _ 0).div hb hDrel
    exact (e1.trans hb e2).mono hb (by omega)
  have hC2 : |arctan (z' / |z'| * C / D') - arctan (z' / |z'| * C' / D')| ≤ (b ^ (4 * κ) - 1) / 2 := by
    refine (arctan_lip _ _).trans ?_
    rw [show z' / |z'| * C / D' - z' / |z'| * C' / D' = z' / |z'| * ((C - C') / D') by ring, abs_mul, hσ, one_mul, abs_div,
      abs_of_pos hD0, div_le_iff₀ hD0]
    have hb4 : 0 ≤ b ^ 4 - 1 := by linarith [pow_ge hb 4]
    have hbern : 1 + κ * (b ^ 4 - 1) ≤ b ^ (4 * κ) := by
      have := one_add_mul_le_pow (a := b ^ 4 - 1) (by linarith) κ
      rwa [add_sub_cancel, ← pow_mul] at this
    calc |C - C'| ≤ (b ^ 4 - 1) * (r1' * r2') := hCapp.err
      _ ≤ (b ^ 4 - 1) * (κ * D' / 2) := by gcongr
      _ = (κ * (b ^ 4 - 1)) / 2 * D' := by ring
      _ ≤ _ := by gcongr; linarith
  have hθ : ∀ w, Rel b (204 * κ + 3) w (z' / |z'| * C / D') → App b (204 * κ + 3) (arctan w) (arctan (z' / |z'| * C' / D')) 2 := by
    intro w hw
    constructor
    · have h1 := arctan_lt_pi_div_two (z' / |z'| * C' / D')
      have h2 := neg_pi_div_two_lt_arctan (z' / |z'| * C' / D')
      rw [abs_le]
      constructor <;> linarith [Real.pi_le_four]
    · have h1 := arctan_rel hb hw
      have h2 : b ^ (4 * κ) ≤ b ^ (204 * κ + 3) := pow_le_pow_right₀ hb (by omega)
      have h3 := pow_ge hb (204 * κ + 3)
      have := abs_sub_le (arctan w) (arctan (z' / |z'| * C / D')) (arctan (z' / |z'| * C' / D'))
      linarith
  have hang : App b (204 * κ + 4) (if c then o.atan2 num den else o.atan (o.div num den)) (arctan (z' / |z'| * C' / D')) 2 := by
    cases c with
    | true =>
      exact (hθ _ (hq.mono hb (by omega))).round hb (rel_of_err ho.nonneg ho.lt_one (ho.atan2 num den hden0))
    | false =>
      exact (hθ _ (((rel_div ho num hden0.ne').trans hb hq).mono hb (by omega))).round hb
        (rel_of_err ho.nonneg ho.lt_one (ho.atan _))
  have hpi : o.pi ≠ 0 := (rel_pi ho).ne_zero hb Real.pi_ne_zero
  have hn : Rel b 2 (o.div a o.pi) (a / π) := (rel_div ho a hpi).trans hb ((Rel.refl hb a 0).div hb (rel_pi ho))
  have hfin := (hang.mul hb (hn.app hb le_rfl)).round hb (rel_mul ho _ _)
  have e : z' * (x1' * y2' - y1' * x2') / (|z'| * (r1' * r2' + x1' * x2' + y1' * y2' + |z'| * (|z'| + r1' + r2')))
      = z' / |z'| * C' / D' := by
    rw [hC', hD']; field_simp
  simp only [flEdgeTerm, edgeTerm, List.getD_cons_zero, e]
  refine hfin.mono hb (by rw [mul_add]; omega) (le_of_eq ?_)
  rw [abs_div, abs_of_pos Real.pi_pos]; ring

end Side
/-! ### The loops -/

/-- a fold of steps with several roundings each -/
theorem RowApp.foldlN {α : Type*} {b : ℝ} {K : Nat} (c : α → Nat) (l : List α) (f g : List ℝ → α → List ℝ) (m : α → ℝ)
    (hstep : ∀ a ∈ l, ∀ k M r s, K ≤ k → RowApp b k M r s → RowApp b (k + c a) (M + m a) (f r a) (g s a))
    {k : Nat} (hk : K ≤ k) {M : ℝ} {r s : List ℝ} (h : RowApp b k M r s) :
    RowApp b (k + (l.map c).sum) (M + (l.map m).sum) (l.foldl f r) (l.foldl g s) := by
  induction l generalizing k M r s with
  | nil => simpa using h
  | cons a l ih =>
    have := ih (fun a ha => hstep a (List.mem_cons_of_mem _ ha)) (Nat.le_add_right_of_le hk) (hstep a List.mem_cons_self k M r s hk h)
    simp only [List.foldl_cons, List.map_cons, List.sum_cons, ← add_assoc]
    exact this

section
variable {o : FloatOps} {u : ℝ} (ho : Accurate o u)
include ho

theorem edge_lengths (c : Bool) (d : Nat) (x1 x2 y1 y2 r1 r2 l2 z a x1' x2' y1' y2' r1' r2' l2' z' a' : ℝ) :
    (flEdgeTerm o c d x1 x2 y1 y2 r1 r2 l2 z a).length = (edgeTerm d x1' x2' y1' y2' r1' r2' l2' z' a').length := by
  cases d <;> simp [flEdgeTerm, edgeTerm]

theorem vertex_fold {K d : Nat} {c : Bool} {v zc z : ℝ} {p : V3} (m : V2 × V2 → ℝ) (poly : List V2) (prev : V2)
    (hm : ∀ e ∈ edgesFrom prev poly, 0 ≤ m e)
    (ht : ∀ e ∈ edgesFrom prev poly, ∀ i < (edgeTerm d 0 0 0 0 0 0 0 0 0).length,
      let x1 := o.sub p.x e.1.x
      let y1 := o.sub p.y e.1.y
      let x2 := o.sub p.x e.2.x
      let y2 := o.sub p.y e.2.y
      App (1 - u)⁻¹ K
        ((flEdgeTerm o c d x1 x2 y1 y2 (flDist o x1 y1 zc) (flDist o x2 y2 zc)
          (o.add (o.pow (o.sub x1 x2) 2) (o.pow (o.sub y1 y2) 2)) zc v).getD i 0)
        ((edgeTerm d (p.x - e.1.x) (p.x - e.2.x) (p.y - e.1.y) (p.y - e.2.y)
          √((p.x - e.1.x) ^ 2 + (p.y - e.1.y) ^ 2 + z ^ 2) √((p.x - e.2.x) ^ 2 + (p.y - e.2.y) ^ 2 + z ^ 2)
          ((p.x - e.1.x - (p.x - e.2.x)) ^ 2 + (p.y - e.1.y - (p.y - e.2.y)) ^ 2) z v).getD i 0) (m e))
    {k : Nat} (hk : K ≤ k) {M : ℝ} {r s : List ℝ} (h : RowApp (1 - u)⁻¹ k M r s) :
    RowApp (1 - u)⁻¹ (k + poly.length) (M + ((edgesFrom prev poly).map m).sum)
      (poly.foldl (flVertexStep o c d v zc p)
        ⟨o.sub p.x prev.x, o.sub p.y prev.y, flDist o (o.sub p.x prev.x) (o.sub p.y prev.y) zc, r⟩).row
      (poly.foldl (polyVertexStep d v z p)
        ⟨p.x - prev.x, p.y - prev.y, √((p.x - prev.x) ^ 2 + (p.y - prev.y) ^ 2 + z ^ 2), s⟩).row := by
  have hb := hbase ho
  induction poly generalizing prev k M r s with
  | nil => simpa [edgesFrom] using h
  | cons q poly ih =>
    have hmem : (prev, q) ∈ edgesFrom prev (q :: poly) := by simp [edgesFrom]
    have hsub : ∀ e ∈ edgesFrom q poly, e ∈ edgesFrom prev (q :: poly) := fun e he => by simp [edgesFrom, he]
    have hone := h.step ho le_rfl (hm _ hmem) (edge_lengths ho c d _ _ _ _ _ _ _ _ _ _ _ _ _ _ _ _ _ _) (fun i hi =>
      (ht (prev, q) hmem i (by rwa [edge_lengths ho c d _ _ _ _ _ _ _ _ _ 0 0 0 0 0 0 0 0 0] at hi)).mono hb hk le_rfl)
    have := ih q (fun e he => hm e (hsub e he)) (fun e he => ht e (hsub e he)) (Nat.le_succ_of_le hk) hone
    simp only [List.foldl_cons, List.length_cons, edgesFrom, List.map_cons, List.sum_cons]
    rw [show k + (poly.length + 1) = k + 1 + poly.length by omega, ← add_assoc]
    exact this

end

end Rounding
end Electrode
