import Verif.Lemmas.CoverSeries
import Verif.Lemmas.RoundLoop
import Verif.Props.SphDeriv

/-
All derivatives of a polygon are integrals of the derivatives of surface elements.
-/
namespace Electrode.ShapeErr
open Spec Real Filter Topology Set MeasureTheory Field

/-- exact arithmetic -/
noncomputable def exactOps : FloatOps where
  add := (· + ·)
  sub := (· - ·)
  mul := (· * ·)
  div := (· / ·)
  pow := (· ^ ·)
  sqrt := Real.sqrt
  atan := arctan
  atan2 y x := arctan (y / x)
  pi := π

theorem exact_accurate : Accurate exactOps 0 where
  nonneg := le_rfl
  lt_one := one_pos
  add x y := by simp [exactOps]
  sub x y := by simp [exactOps]
  mul x y := by simp [exactOps]
  div x y _ := by simp [exactOps]
  pow x n := by simp [exactOps]
  sqrt x _ := by simp [exactOps]
  atan x := by simp [exactOps]
  atan2 y x _ := by simp [exactOps]
  pi := by simp [exactOps]

/-- the factor in the bound of the derivatives of order `d` -/
def wgt (d : Nat) : ℝ := [1, 4, 18, 150, 1620, 17100].getD d 0

theorem wgt_nonneg (d : Nat) : 0 ≤ wgt d := by
  unfold wgt
  match d with
  | 0 | 1 | 2 | 3 | 4 | 5 => norm_num
  | n + 6 => simp

theorem pixelComp_le (d : Nat) (hd : d ≤ 5) (i : Nat) (q : V2) {p : V3} (hp : p.z ≠ 0) :
    |pixelComp d i q p| ≤ wgt d / (2 * π * |p.z| ^ (d + 2)) := by
  have hz : 0 < |p.z| := abs_pos.2 hp
  by_cases hi : i < (pointNum d).length
  · have h := (Rounding.point_app exact_accurate (by norm_num) hp (nmax := 0) (h := 0) (by simp) d hd (q, 1) 1 (k := 0) (by simp [coverRange]) i hi).size
    simp only [mul_one, Int.cast_zero, mul_zero, add_zero, zero_mul] at h
    refine (le_of_eq ?_).trans (h.trans ?_)
    · rfl
    · rw [patchSize, abs_one, mul_one]
      have h1 : |p.z| ≤ imageDist p q 0 0 := by
        unfold imageDist
        refine Real.abs_le_sqrt ?_
        simp only [Int.cast_zero, mul_zero, add_zero]
        nlinarith [sq_nonneg (p.x - q.x), sq_nonneg (p.y - q.y)]
      have := wgt_nonneg d
      unfold wgt at this ⊢
      gcongr
  · have : pixelComp d i q p = 0 := by
      unfold pixelComp pointTerm
      rw [List.getD_eq_getElem?_getD, List.getElem?_eq_none (by simpa using hi)]; rfl
    rw [this, abs_zero]
    have := wgt_nonneg d
    positivity

theorem eval_measurable {ρ : ℝ × ℝ → Nat → ℝ} (hρ : ∀ j, Measurable fun q => ρ q j) (e : PExpr) : Measurable fun q => e.eval (ρ q) := by
  induction e with
  | c n => exact measurable_const
  | v j => exact hρ j
  | neg a ih => exact ih.neg
  | add a b ha hb => exact ha.add hb
  | sub a b ha hb => exact ha.sub hb
  | mul a b ha hb => exact ha.mul hb
  | pow a n ih => exact ih.pow_const n

theorem pixelComp_measurable (d : Nat) (hd : d ≤ 5) (i : Nat) (p : V3) : Measurable fun q : ℝ × ℝ => pixelComp d i ⟨q.1, q.2⟩ p := by
  have e : (fun q : ℝ × ℝ => pixelComp d i ⟨q.1, q.2⟩ p) = fun q : ℝ × ℝ =>
      (pNum d i).eval (relEnv ⟨q.1, q.2⟩ p) * (pc d / (2 * π) / relR ⟨q.1, q.2⟩ p ^ (2 * d + 3)) :=
    funext fun q => pixelComp_eq d i (by omega) ⟨q.1, q.2⟩ p
  rw [e]
  have hr : Measurable fun q : ℝ × ℝ => relR ⟨q.1, q.2⟩ p := by unfold relR; fun_prop
  refine (eval_measurable (fun j => ?_) _).mul ((hr.pow_const _).const_div _)
  match j with
  | 0 => show Measurable fun q : ℝ × ℝ => p.x - q.1; fun_prop
  | 1 => show Measurable fun q : ℝ × ℝ => p.y - q.2; fun_prop
  | 2 => exact measurable_const
  | 3 => exact hr
  | n + 4 => exact measurable_const

/-- the tensors of a surface element -/
noncomputable def pixT (l : Idx) (p : V3) (q : ℝ × ℝ) : ℝ := tens (fun k i p => pixelComp k i ⟨q.1, q.2⟩ p) l.length l p

theorem tens_le {F : Nat → Nat → V3 → ℝ} {k : Nat} {p : V3} {B : ℝ} (hB : 0 ≤ B) (hF : ∀ i, |F k i p| ≤ B) (l : Idx) :
    |tens F k l p| ≤ 2 * B := by
  have h : ∀ i, |((List.range (2 * k + 1)).map fun i => F k i p).getD i 0| ≤ B := fun i => by
    rw [getD_range_map]
    split
    · exact hF i
    · simpa using hB
  unfold tens
  cases entrySel k l with
  | one i => exact (h i).trans (by linarith)
  | lap i j =>
    refine (abs_sub _ _).trans ?_
    rw [abs_neg]
    linarith [h i, h j]

theorem tens_measurable {F : Nat → Nat → ℝ × ℝ → ℝ} {k : Nat} (hF : ∀ i, Measurable (F k i)) (l : Idx) (p : V3) :
    Measurable fun q => tens (fun k i _ => F k i q) k l p := by
  have h : ∀ i, Measurable fun q => ((List.range (2 * k + 1)).map fun i => F k i q).getD i 0 := fun i => by
    simp only [getD_range_map]
    split
    · exact hF i
    · exact measurable_const
  unfold tens
  cases entrySel k l with
  | one i => exact h i
  | lap i j => exact (h i).neg.sub (h j)

theorem pixT_le (l : Idx) (hl : l.length ≤ 5) {p : V3} (hp : p.z ≠ 0) (q : ℝ × ℝ) :
    |pixT l p q| ≤ 2 * (wgt l.length / (2 * π * |p.z| ^ (l.length + 2))) := by
  refine tens_le ?_ (fun i => pixelComp_le _ hl i _ hp) l
  have := wgt_nonneg l.length
  have : 0 < |p.z| := abs_pos.2 hp
  positivity

theorem pixT_measurable (l : Idx) (hl : l.length ≤ 5) (p : V3) : Measurable (pixT l p) :=
  tens_measurable (F := fun k i q => pixelComp k i ⟨q.1, q.2⟩ p) (fun i => pixelComp_measurable _ hl i p) l p

theorem pixT_step (l : Idx) (hl : l.length < 5) (a : Axis) {p : V3} (hp : p.z ≠ 0) (q : ℝ × ℝ) :
    HasPartial a (fun p => pixT l p q) (pixT (l ++ [a]) p q) p := by
  have h := tens_step (fun k i p => pixelComp k i ⟨q.1, q.2⟩ p) l.length hl a p
    (fun i hi => pixel_step l.length hl i hi ⟨q.1, q.2⟩ p (fun h => hp h.2.2) a) l rfl
  unfold pixT
  simpa using h

/-- the tensors of polygons, without cover -/
noncomputable def polT (polys : List (List V2)) (l : Idx) (p : V3) : ℝ :=
  tens (fun k i p => (polys.map fun poly => polyComp k i poly p).sum) l.length l p

theorem polT_step (polys : List (List V2)) (l : Idx) (hl : l.length < 5) (a : Axis) {p : V3} (hp : p.z ≠ 0) :
    HasPartial a (polT polys l) (polT polys (l ++ [a]) p) p := by
  have e : (fun k i p => polyContrib k 0 0 polys p i) = fun k i p => (polys.map fun poly => polyComp k i poly p).sum := by
    funext k i p
    rw [polyContrib_swap]
    simp [coverRange, V3.lift]
  have h := tens_step (fun k i p => polyContrib k 0 0 polys p i) l.length hl a p
    (fun i hi => poly_step polys 0 0 l.length hl i hi a p (fun m _ _ => by simpa using hp)) l rfl
  rw [e] at h
  unfold polT
  simpa using h

theorem pixT_nil (p : V3) (q : ℝ × ℝ) : pixT [] p q = pixelAt p q := by
  have h : pixT [] p q = pixelComp 0 0 ⟨q.1, q.2⟩ p := tens_nameIdx (fun k i p => pixelComp k i ⟨q.1, q.2⟩ p) 0 0 (by norm_num) (by norm_num) p
  rw [h]
  simp [pixelComp, pointTerm, pointNum, pointNum0, pointNorm, PExpr.eval, pointEnv, pixelAt]
  ring

theorem polT_nil (polys : List (List V2)) (p : V3) : polT polys [] p = (polys.map fun poly => polyComp 0 0 poly p).sum :=
  tens_nameIdx (fun k i p => (polys.map fun poly => polyComp k i poly p).sum) 0 0 (by norm_num) (by norm_num) p

theorem polT_integral (polys : List (List V2)) (l : Idx) (hl : l.length ≤ 5) : ∀ p : V3, p.z ≠ 0 →
    polT polys l p = ∫ q : ℝ × ℝ, (covered polys q : ℝ) * pixT l p q := by
  induction l using List.reverseRecOn with
  | nil =>
    intro p hp
    rw [polT_nil, ← (covered_integral hp polys).2]
    simp only [pixT_nil]
  | append_singleton l a ih =>
    intro p hp
    rw [List.length_append, List.length_singleton] at hl
    have h1 := polT_step polys l (by omega) a hp
    have h2 := under polys (a := a) (k := pixT l) (k' := pixT (l ++ [a])) (pixT_measurable l (by omega))
      (pixT_measurable (l ++ [a]) (by simpa using hl)) (fun p q hp => pixT_step l (by omega) a hp q)
      (c := fun z => 2 * (wgt l.length / (2 * π * z ^ (l.length + 2)))) (c' := fun z => 2 * (wgt (l ++ [a]).length / (2 * π * z ^ ((l ++ [a]).length + 2))))
      (fun p q hp => pixT_le l (by omega) hp q) (fun p q hp => pixT_le (l ++ [a]) (by simpa using hl) hp q)
      (fun x y hx hxy => by
        have := wgt_nonneg (l ++ [a]).length
        gcongr) hp
    refine HasDerivAt.unique h1 (h2.congr_of_eventuallyEq ?_)
    have : ∀ᶠ t in 𝓝 (0 : ℝ), (shift p a t).z ≠ 0 :=
      (EdgeId.shift_z_continuous p a).continuousAt.eventually_ne (by rw [sh0]; exact hp)
    filter_upwards [this] with t ht
    exact ih (by omega) _ ht

/-- the components as integrals -/
theorem comp_integral (polys : List (List V2)) (d : Nat) (hd : d ≤ 5) (i : Nat) (hi : i < 2 * d + 1) {p : V3} (hp : p.z ≠ 0) :
    (polys.map fun poly => polyComp d i poly p).sum = ∫ q : ℝ × ℝ, (covered polys q : ℝ) * pixelComp d i ⟨q.1, q.2⟩ p := by
  have hlen := nameIdx_length d i (by omega) hi
  have h := polT_integral polys (nameIdx d i) (by omega) p hp
  unfold polT pixT at h
  rw [hlen] at h
  simpa only [tens_nameIdx _ d i (by omega) hi] using h

theorem comp_integrable (polys : List (List V2)) (d : Nat) (hd : d ≤ 5) (i : Nat) {p : V3} (hp : p.z ≠ 0) :
    Integrable fun q : ℝ × ℝ => (covered polys q : ℝ) * pixelComp d i ⟨q.1, q.2⟩ p :=
  bdd_int polys (pixelComp_measurable d hd i p) fun q => pixelComp_le d hd i _ hp

/-- how far the derivatives of two shapes differ -/
theorem comp_diff (polys polys' : List (List V2)) (d : Nat) (hd : d ≤ 5) (i : Nat) (hi : i < 2 * d + 1) {p : V3} (hp : p.z ≠ 0) :
    |(polys'.map fun poly => polyComp d i poly p).sum - (polys.map fun poly => polyComp d i poly p).sum|
      ≤ (∫ q : ℝ × ℝ, |(covered polys' q : ℝ) - covered polys q|) * (wgt d / (2 * π * |p.z| ^ (d + 2))) := by
  rw [comp_integral polys d hd i hi hp, comp_integral polys' d hd i hi hp,
    ← integral_sub (comp_integrable polys' d hd i hp) (comp_integrable polys d hd i hp), ← Real.norm_eq_abs]
  have h2 : ∀ q : ℝ × ℝ, ‖(covered polys' q : ℝ) * pixelComp d i ⟨q.1, q.2⟩ p - (covered polys q : ℝ) * pixelComp d i ⟨q.1, q.2⟩ p‖
      ≤ |(covered polys' q : ℝ) - covered polys q| * (wgt d / (2 * π * |p.z| ^ (d + 2))) := fun q => by
    rw [← sub_mul, norm_mul, Real.norm_eq_abs, Real.norm_eq_abs]
    exact mul_le_mul_of_nonneg_left (pixelComp_le d hd i _ hp) (abs_nonneg _)
  have h3 := norm_integral_le_of_norm_le
    (((Cover.covered_integrable' polys').sub (Cover.covered_integrable' polys)).abs.mul_const _) (Eventually.of_forall h2)
  rwa [integral_mul_const] at h3

end Electrode.ShapeErr
