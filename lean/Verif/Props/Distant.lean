import Verif.Spec.Distant
import Verif.Props.Tolerance

/-
C128: electrodes and covers far away matter little.
-/
namespace Electrode
open Spec Real MeasureTheory ShapeErr

namespace ShapeErr

theorem pixelComp_far (d : Nat) (hd : d ≤ 5) (i : Nat) (q : V2) {p : V3} (hp : p.z ≠ 0) {ρ : ℝ}
    (hρ : ρ ^ 2 ≤ (p.x - q.x) ^ 2 + (p.y - q.y) ^ 2) : |pixelComp d i q p| ≤ elementSize d √(ρ ^ 2 + p.z ^ 2) := by
  have hz : 0 < p.z ^ 2 := by positivity
  have hR : 0 < √(ρ ^ 2 + p.z ^ 2) := Real.sqrt_pos.2 (by positivity)
  unfold elementSize
  rw [abs_of_pos hR]
  by_cases hi : i < (pointNum d).length
  · have h := (Rounding.point_app exact_accurate (by norm_num) hp (nmax := 0) (h := 0) (by simp) d hd (q, 1) 1 (k := 0) (by simp [coverRange]) i hi).size
    simp only [mul_one, Int.cast_zero, mul_zero, add_zero, zero_mul] at h
    refine (le_of_eq ?_).trans (h.trans ?_)
    · rfl
    · rw [patchSize, abs_one, mul_one]
      have h1 : √(ρ ^ 2 + p.z ^ 2) ≤ imageDist p q 0 0 := by
        unfold imageDist
        refine Real.sqrt_le_sqrt ?_
        simp only [Int.cast_zero, mul_zero, add_zero]
        linarith
      have := wgt_nonneg d
      unfold wgt at this
      gcongr
  · have : pixelComp d i q p = 0 := by
      unfold pixelComp pointTerm
      rw [List.getD_eq_getElem?_getD, List.getElem?_eq_none (by simpa using hi)]; rfl
    rw [this, abs_zero]
    exact div_nonneg (wgt_nonneg d) (by positivity)

/-- the contribution of one image -/
noncomputable def base (d i : Nat) (p : V3) : Shape → ℝ
  | .points ps as _ _ => ((ps.zip as).map fun q => q.2 * pixelComp d i q.1 p).sum
  | .polygons polys _ _ => (polys.map fun poly => polyComp d i poly p).sum
  | _ => 0

theorem elementSize_nonneg (d : Nat) (z : ℝ) : 0 ≤ elementSize d z := div_nonneg (wgt_nonneg d) (by positivity)

theorem extent_nonneg (s : Shape) : 0 ≤ extent s := by
  cases s with
  | points => exact List.sum_nonneg (by simp only [List.mem_map]; rintro x ⟨q, -, rfl⟩; exact abs_nonneg _)
  | polygons => exact integral_nonneg fun _ => abs_nonneg _
  | _ => exact le_rfl

theorem sum_swap {α : Type*} (L : List α) (F : Finset ℤ) (g : α → ℤ → ℝ) :
    (L.map fun a => ∑ m ∈ F, g a m).sum = ∑ m ∈ F, (L.map fun a => g a m).sum := by
  induction L with
  | nil => simp
  | cons a L ih => simp only [List.map_cons, List.sum_cons, ih, Finset.sum_add_distrib]

theorem contrib_base (s : Shape) (hs : inPlane s) (d i : Nat) (p : V3) :
    s.contrib d p i = ∑ m ∈ Finset.Icc (-(imageCount s : ℤ)) (imageCount s), base d i (p.lift (2 * m * coverHeight s)) s := by
  cases s with
  | points ps as h n =>
    simp only [Shape.contrib, pointContrib, base, imageCount, coverHeight]
    rw [← sum_swap]
    congr 1
    refine List.map_congr_left fun q _ => ?_
    unfold images
    rw [List.map_map, ← coverRange_Icc]
    rfl
  | polygons polys h n =>
    simp only [Shape.contrib, base, imageCount, coverHeight]
    rw [polyContrib_swap, coverRange_Icc]
  | _ => exact hs.elim

/-- the parts of an electrode are far away -/
def away (ρ : ℝ) (p : V3) : Shape → Prop
  | .points ps as _ _ => ∀ q ∈ ps.zip as, ρ ^ 2 ≤ (p.x - q.1.x) ^ 2 + (p.y - q.1.y) ^ 2
  | .polygons polys _ _ => ∀ q : ℝ × ℝ, covered polys q ≠ 0 → ρ ^ 2 ≤ (p.x - q.1) ^ 2 + (p.y - q.2) ^ 2
  | _ => True

theorem base_le (s : Shape) (d : Nat) (hd : d ≤ 5) (i : Nat) (hi : i < 2 * d + 1) {p : V3} (hp : p.z ≠ 0) {ρ : ℝ} (ha : away ρ p s) :
    |base d i p s| ≤ extent s * elementSize d √(ρ ^ 2 + p.z ^ 2) := by
  cases s with
  | points ps as h n =>
    simp only [base, extent, away] at ha ⊢
    revert ha
    induction ps.zip as with
    | nil => simp
    | cons q L ih =>
      intro ha
      simp only [List.map_cons, List.sum_cons, add_mul]
      refine (abs_add_le _ _).trans (add_le_add ?_ (ih fun r hr => ha r (by simp [hr])))
      rw [abs_mul]
      exact mul_le_mul_of_nonneg_left (pixelComp_far d hd i q.1 hp (ha q (by simp))) (abs_nonneg _)
  | polygons polys h n =>
    simp only [base, extent, away] at ha ⊢
    rw [comp_integral polys d hd i hi hp, ← Real.norm_eq_abs]
    have h2 : ∀ q : ℝ × ℝ, ‖(covered polys q : ℝ) * pixelComp d i ⟨q.1, q.2⟩ p‖ ≤ |(covered polys q : ℝ)| * elementSize d √(ρ ^ 2 + p.z ^ 2) :=
      fun q => by
        rw [norm_mul, Real.norm_eq_abs, Real.norm_eq_abs]
        by_cases hq : covered polys q = 0
        · simp [hq]
        · exact mul_le_mul_of_nonneg_left (pixelComp_far d hd i _ hp (ha q hq)) (abs_nonneg _)
    have h3 := norm_integral_le_of_norm_le ((Cover.covered_integrable' polys).abs.mul_const _) (Filter.Eventually.of_forall h2)
    rwa [integral_mul_const] at h3
  | _ => simp [base, extent]

theorem beyond_flat {ρ : ℝ} {p : V3} {s : Shape} (h : beyond ρ p s) : inPlane s ∧ offPlanes (coverHeight s) (imageCount s) p ∧ away ρ p s := by
  cases s with
  | points => exact ⟨trivial, h.1, h.2⟩
  | polygons => exact ⟨trivial, h.1, h.2⟩
  | _ => exact h.elim

theorem contrib_far {ρ : ℝ} {p : V3} {s : Shape} (h : beyond ρ p s) (d : Nat) (hd : d ≤ 5) (i : Nat) (hi : i < 2 * d + 1) :
    |s.contrib d p i| ≤ extent s * farSize d (imageCount s) (coverHeight s) ρ p.z := by
  obtain ⟨h1, h2, h3⟩ := beyond_flat h
  rw [contrib_base s h1, farSize, Finset.mul_sum]
  refine (Finset.abs_sum_le_sum_abs _ _).trans (Finset.sum_le_sum fun m hm => ?_)
  rw [Finset.mem_Icc] at hm
  refine base_le s d hd i hi (p := p.lift (2 * m * coverHeight s)) (h2 m hm.1 hm.2) ?_
  cases s <;> exact h3

theorem farSize_nonneg (d n : Nat) (h ρ z : ℝ) : 0 ≤ farSize d n h ρ z := Finset.sum_nonneg fun _ _ => elementSize_nonneg d _

theorem avail_flat {s : Shape} (h : inPlane s) (d : Nat) : s.Avail d := by cases s <;> trivial

end ShapeErr

/-- **C128.** No component of the potential of an electrode and its derivatives is larger than the voltage times the area times the
size of the derivatives of surface elements at that distance. -/
theorem c128_far (e : Elec) (d : Nat) (hd : d ≤ 5) (i : Nat) (hi : i < 2 * d + 1) (v : ℝ) (p : V3) (ρ : ℝ) (h : beyond ρ p e.shape) :
    |compAt e d i v p| ≤ |v| * extent e.shape * farSize d (imageCount e.shape) (coverHeight e.shape) ρ p.z := by
  rw [compAt_eq e d i v p (avail_flat (beyond_flat h).1 d) hi, abs_mul, mul_assoc]
  exact mul_le_mul_of_nonneg_left (contrib_far h d hd i hi) (abs_nonneg _)

/-- **C128.** Without a cover, the derivatives of order `d` of an electrode fall with the power `d + 2` of the distance. -/
theorem c128_fall (e : Elec) (he : imageCount e.shape = 0) (d : Nat) (hd : d ≤ 5) (i : Nat) (hi : i < 2 * d + 1) (v : ℝ) (p : V3) (ρ : ℝ)
    (hρ : 0 < ρ) (h : beyond ρ p e.shape) : |compAt e d i v p| ≤ |v| * extent e.shape * ([1, 4, 18, 150, 1620, 17100].getD d 0 / (2 * π * ρ ^ (d + 2))) := by
  refine (c128_far e d hd i hi v p ρ h).trans (mul_le_mul_of_nonneg_left ?_ (mul_nonneg (abs_nonneg _) (extent_nonneg _)))
  have h1 : ρ ≤ √(ρ ^ 2 + p.z ^ 2) := Real.le_sqrt_of_sq_le (by linarith [sq_nonneg p.z])
  have := wgt_nonneg d
  unfold wgt at this
  simp only [farSize, he, CharP.cast_eq_zero, neg_zero, Finset.Icc_self, Finset.sum_singleton, Int.cast_zero, mul_zero, zero_mul, add_zero,
    elementSize, abs_of_nonneg (Real.sqrt_nonneg _)]
  gcongr

/-- **C128.** Leaving electrodes out of a system changes no entry of its tensors by more than the sum of these bounds. -/
theorem c128_drop (s : List Elec) (keep : Elec → Bool) (typ : VTyp) (l : Idx) (hl : l.length ≤ 5) (p : V3) (hp : offSystem s p)
    (ρ : Elec → ℝ) (hk : ∀ e ∈ s, keep e = false → beyond (ρ e) p e.shape) :
    |electricalAt s typ l p - electricalAt (s.filter keep) typ l p| ≤ ((s.filter fun e => !keep e).map fun e => 2 * (|(e.volt typ).getD 0| *
      extent e.shape * farSize l.length (imageCount e.shape) (coverHeight e.shape) (ρ e) p.z)).sum := by
  have hp' : offSystem (s.filter keep) p := fun e he => hp e (List.mem_filter.1 he).1
  rw [electricalAt_eq s typ l (by omega) p (avail_of_off hp _ _), electricalAt_eq _ typ l (by omega) p (avail_of_off hp' _ _),
    sysTens_eq, sysTens_eq]
  clear hp hp'
  induction s with
  | nil => simp
  | cons e s ih =>
    have i1 := ih fun x hx => hk x (by simp [hx])
    cases hke : keep e with
    | true =>
      simpa [List.filter_cons, hke] using i1
    | false =>
      have hb := hk e (by simp) hke
      simp only [List.filter_cons, hke, Bool.not_false, if_true, List.map_cons, List.sum_cons, Bool.false_eq_true, if_false]
      rw [add_sub_assoc]
      refine (abs_add_le _ _).trans (add_le_add ?_ i1)
      have hF := mul_nonneg (extent_nonneg e.shape) (farSize_nonneg l.length (imageCount e.shape) (coverHeight e.shape) (ρ e) p.z)
      have i2 := tens_sub_le (F := fun k i p => e.shape.contrib k p i) (G := fun _ _ _ => 0) (k := l.length) (p := p) hF
        (fun i hi => by rw [sub_zero]; exact contrib_far hb l.length hl i hi) l
      have z : tens (fun _ _ _ => (0 : ℝ)) l.length l p = 0 := by
        have := tens_smul (fun _ _ _ => (0 : ℝ)) 0 l.length l p
        simpa using this
      rw [z, sub_zero] at i2
      have hv : |(e.volt typ).getD 0| = |e.voltD typ| := rfl
      rw [abs_mul, hv]
      refine (mul_le_mul_of_nonneg_left i2 (abs_nonneg _)).trans (le_of_eq (by ring))

namespace ShapeErr

theorem recover_count {s : Shape} (hs : inPlane s) (h : ℝ) (n : Nat) :
    inPlane (recover h n s) ∧ imageCount (recover h n s) = n ∧ coverHeight (recover h n s) = h ∧ extent (recover h n s) = extent s
      ∧ (∀ d i p, base d i p (recover h n s) = base d i p s) := by
  cases s <;> first | exact ⟨trivial, rfl, rfl, rfl, fun _ _ _ => rfl⟩ | exact hs.elim

theorem image_height {z h : ℝ} (hz : |z| ≤ h) (m : ℤ) : (2 * |(m : ℝ)| - 1) * h ≤ |z + 2 * m * h| := by
  have h0 : 0 ≤ h := (abs_nonneg z).trans hz
  have e1 : |2 * (m : ℝ) * h| = 2 * |(m : ℝ)| * h := by rw [abs_mul, abs_mul, abs_two, abs_of_nonneg h0]
  have e2 := abs_sub_abs_le_abs_sub (2 * (m : ℝ) * h) (-z)
  rw [abs_neg, sub_neg_eq_add, e1, add_comm] at e2
  linarith

theorem image_size (d : Nat) {z h : ℝ} (h0 : 0 < h) (hz : |z| ≤ h) {m : ℤ} (hm : m ≠ 0) :
    elementSize d (z + 2 * m * h) ≤ elementSize d h / (2 * |(m : ℝ)| - 1) ^ (d + 2) := by
  have h1 : (1 : ℝ) ≤ |(m : ℝ)| := by
    have := Int.one_le_abs hm
    rw [← Int.cast_abs]
    exact_mod_cast this
  have := image_height hz m
  have hw := wgt_nonneg d
  unfold wgt at hw
  unfold elementSize
  rw [abs_of_pos h0, div_div, mul_assoc (2 * π), ← mul_pow]
  have h2 : 0 < h * (2 * |(m : ℝ)| - 1) := mul_pos h0 (by linarith)
  rw [mul_comm h] at h2 ⊢
  gcongr

theorem away_self (s : Shape) (p : V3) : away 0 p s := by
  cases s with
  | points => exact fun q _ => by nlinarith [sq_nonneg (p.x - q.1.x), sq_nonneg (p.y - q.1.y)]
  | polygons => exact fun q _ => by nlinarith [sq_nonneg (p.x - q.1), sq_nonneg (p.y - q.2)]
  | _ => trivial

theorem base_le' (s : Shape) (d : Nat) (hd : d ≤ 5) (i : Nat) (hi : i < 2 * d + 1) {p : V3} (hp : p.z ≠ 0) :
    |base d i p s| ≤ extent s * elementSize d p.z := by
  have := base_le s d hd i hi hp (away_self s p)
  rwa [show (0 : ℝ) ^ 2 + p.z ^ 2 = p.z ^ 2 by ring, Real.sqrt_sq_eq_abs, show elementSize d |p.z| = elementSize d p.z by simp [elementSize]] at this

theorem Icc_split (n n' : Nat) (hn : n ≤ n') (g : ℤ → ℝ) : ∑ m ∈ Finset.Icc (-(n' : ℤ)) n', g m - ∑ m ∈ Finset.Icc (-(n : ℤ)) n, g m
    = ∑ k ∈ Finset.Ico n n', (g (k + 1) + g (-(k + 1))) := by
  induction n', hn using Nat.le_induction with
  | base => simp
  | succ n' hn ih =>
    rw [Finset.sum_Ico_succ_top hn, ← ih]
    have : Finset.Icc (-((n' + 1 : ℕ) : ℤ)) ((n' + 1 : ℕ) : ℤ) = insert ((n' : ℤ) + 1) (insert (-((n' : ℤ) + 1)) (Finset.Icc (-(n' : ℤ)) n')) := by
      ext x
      simp only [Finset.mem_Icc, Finset.mem_insert]
      push_cast
      omega
    rw [this, Finset.sum_insert (by simp only [Finset.mem_insert, Finset.mem_Icc]; omega),
      Finset.sum_insert (by simp only [Finset.mem_Icc]; omega)]
    ring

/-- the effect of further images -/
theorem images_le (s : Shape) (hs : inPlane s) (d : Nat) (hd : d ≤ 5) (i : Nat) (hi : i < 2 * d + 1) {p : V3} {h : ℝ}
    (h0 : 0 < h) (hz : |p.z| ≤ h) {n n' : Nat} (hn : n ≤ n') :
    |(recover h n' s).contrib d p i - (recover h n s).contrib d p i|
      ≤ extent s * elementSize d h * ∑ k ∈ Finset.Ico n n', 2 / (2 * (k : ℝ) + 1) ^ (d + 2) := by
  obtain ⟨f1, c1, k1, -, b1⟩ := recover_count hs h n
  obtain ⟨f2, c2, k2, -, b2⟩ := recover_count hs h n'
  rw [contrib_base _ f1, contrib_base _ f2, c1, c2, k1, k2]
  simp only [b1, b2]
  rw [Icc_split n n' hn, Finset.mul_sum]
  refine (Finset.abs_sum_le_sum_abs _ _).trans (Finset.sum_le_sum fun k _ => ?_)
  have one : ∀ m : ℤ, |(m : ℝ)| = k + 1 → |base d i (p.lift (2 * m * h)) s| ≤ extent s * (elementSize d h / (2 * (k : ℝ) + 1) ^ (d + 2)) := by
    intro m hm
    have hm0 : m ≠ 0 := by
      rintro rfl
      simp only [Int.cast_zero, abs_zero] at hm
      have : (0 : ℝ) ≤ k := Nat.cast_nonneg k
      linarith
    have hk : (0 : ℝ) ≤ k := Nat.cast_nonneg k
    have h1 := image_size d h0 hz hm0
    have h2 := image_height hz m
    rw [hm, show 2 * ((k : ℝ) + 1) - 1 = 2 * k + 1 by ring] at h1 h2
    have h3 : p.z + 2 * m * h ≠ 0 := abs_pos.1 (lt_of_lt_of_le (mul_pos (by linarith) h0) h2)
    exact (base_le' s d hd i hi (p := p.lift (2 * m * h)) h3).trans (mul_le_mul_of_nonneg_left h1 (extent_nonneg s))
  have a := one (k + 1) (by push_cast; rw [abs_of_nonneg (by positivity)])
  have b := one (-(k + 1)) (by push_cast; rw [abs_neg, abs_of_nonneg (by positivity)])
  refine (abs_add_le _ _).trans ((add_le_add a b).trans (le_of_eq (by ring)))

theorem tail_le (d : Nat) (n n' : Nat) (hn : 1 ≤ n) (hnn : n ≤ n') :
    ∑ k ∈ Finset.Ico n n', 2 / (2 * (k : ℝ) + 1) ^ (d + 2) ≤ 1 / (2 * n * (2 * n + 1) ^ d) := by
  have hn' : (1 : ℝ) ≤ n := by exact_mod_cast hn
  have key : ∀ k ∈ Finset.Ico n n', 2 / (2 * (k : ℝ) + 1) ^ (d + 2) ≤ (1 / (2 * (n : ℝ) + 1) ^ d / 2) * (1 / (k : ℝ) - 1 / ((k + 1 : ℕ) : ℝ)) := by
    intro k hk
    rw [Finset.mem_Ico] at hk
    have hk' : (n : ℝ) ≤ k := by exact_mod_cast hk.1
    have hk0 : (0 : ℝ) < k := by linarith
    have e1 : 1 / (k : ℝ) - 1 / ((k + 1 : ℕ) : ℝ) = 1 / (k * (k + 1)) := by
      have : (k : ℝ) ≠ 0 := by positivity
      push_cast
      field_simp
      ring
    rw [e1, pow_add]
    have h1 : (2 * (n : ℝ) + 1) ^ d ≤ (2 * (k : ℝ) + 1) ^ d := by gcongr
    have h2 : 2 * ((k : ℝ) * (k + 1)) * 2 ≤ (2 * (k : ℝ) + 1) ^ 2 := by nlinarith
    have hp1 : 0 < (2 * (n : ℝ) + 1) ^ d := by positivity
    have hp2 : 0 < (k : ℝ) * (k + 1) := by positivity
    rw [div_div, div_mul_div_comm, one_mul, div_le_div_iff₀ (by positivity) (by positivity)]
    nlinarith [mul_le_mul h1 h2 (by positivity) (by positivity)]
  refine (Finset.sum_le_sum key).trans ?_
  rw [← Finset.mul_sum]
  have tele : ∑ k ∈ Finset.Ico n n', (1 / (k : ℝ) - 1 / ((k + 1 : ℕ) : ℝ)) = 1 / (n : ℝ) - 1 / (n' : ℝ) := by
    have := Finset.sum_Ico_sub (fun k : ℕ => -(1 / (k : ℝ))) hnn
    simp only [neg_sub_neg] at this
    exact this
  rw [tele]
  have h3 : 1 / (n : ℝ) - 1 / (n' : ℝ) ≤ 1 / n := by
    have : (0 : ℝ) ≤ 1 / (n' : ℝ) := by positivity
    linarith
  refine (mul_le_mul_of_nonneg_left h3 (by positivity)).trans (le_of_eq ?_)
  field_simp

end ShapeErr

/-- **C128.** A cover above the position changes no component by more than 5/2 times the voltage times the area times the size of the
derivatives of a surface element at the distance of the cover: a high cover has no effect. -/
theorem c128_cover (e : Elec) (he : inPlane e.shape) (d : Nat) (hd : d ≤ 5) (i : Nat) (hi : i < 2 * d + 1) (v : ℝ) (p : V3) (h : ℝ) (h0 : 0 < h)
    (hz : |p.z| ≤ h) (n : Nat) :
    |compAt { e with shape := recover h n e.shape } d i v p - compAt { e with shape := recover h 0 e.shape } d i v p|
      ≤ |v| * extent e.shape * (5 / 2 * elementSize d h) := by
  rw [compAt_eq { e with shape := recover h n e.shape } d i v p (avail_flat (recover_count he h n).1 d) hi,
    compAt_eq { e with shape := recover h 0 e.shape } d i v p (avail_flat (recover_count he h 0).1 d) hi, ← mul_sub, abs_mul, mul_assoc]
  refine mul_le_mul_of_nonneg_left ((images_le e.shape he d hd i hi h0 hz (Nat.zero_le n)).trans ?_) (abs_nonneg _)
  have hE := mul_nonneg (extent_nonneg e.shape) (elementSize_nonneg d h)
  have : ∑ k ∈ Finset.Ico 0 n, 2 / (2 * (k : ℝ) + 1) ^ (d + 2) ≤ 5 / 2 := by
    rcases Nat.eq_zero_or_pos n with rfl | hn
    · norm_num
    · rw [Finset.sum_eq_sum_Ico_succ_bot hn]
      have := tail_le d 1 n le_rfl hn
      have h3 : (1 : ℝ) ≤ 3 ^ d := one_le_pow₀ (by norm_num)
      have h4 : 1 / (2 * ((1 : ℕ) : ℝ) * (2 * ((1 : ℕ) : ℝ) + 1) ^ d) ≤ 1 / 2 := by
        norm_num
        exact inv_le_one_of_one_le₀ h3
      norm_num at this h4 ⊢
      linarith
  rw [show extent e.shape * (5 / 2 * elementSize d h) = extent e.shape * elementSize d h * (5 / 2) by ring]
  exact mul_le_mul_of_nonneg_left this hE

/-- **C128.** More images: after `n` images on both sides nothing changes by more than this. -/
theorem c128_images (e : Elec) (he : inPlane e.shape) (d : Nat) (hd : d ≤ 5) (i : Nat) (hi : i < 2 * d + 1) (v : ℝ) (p : V3) (h : ℝ) (h0 : 0 < h)
    (hz : |p.z| ≤ h) (n n' : Nat) (hn : 1 ≤ n) (hnn : n ≤ n') :
    |compAt { e with shape := recover h n' e.shape } d i v p - compAt { e with shape := recover h n e.shape } d i v p|
      ≤ |v| * extent e.shape * elementSize d h / (2 * n * (2 * n + 1) ^ d) := by
  rw [compAt_eq { e with shape := recover h n e.shape } d i v p (avail_flat (recover_count he h n).1 d) hi,
    compAt_eq { e with shape := recover h n' e.shape } d i v p (avail_flat (recover_count he h n').1 d) hi, ← mul_sub, abs_mul, mul_assoc, mul_div_assoc]
  refine mul_le_mul_of_nonneg_left ((images_le e.shape he d hd i hi h0 hz hnn).trans ?_) (abs_nonneg _)
  have hE := mul_nonneg (extent_nonneg e.shape) (elementSize_nonneg d h)
  rw [← mul_one_div]
  exact mul_le_mul_of_nonneg_left (tail_le d n n' hn hnn) hE

/-- **C128.** The derivatives below a cover tend to those without cover when the cover is raised. -/
theorem c128_cover_limit (e : Elec) (he : inPlane e.shape) (d : Nat) (hd : d ≤ 5) (i : Nat) (hi : i < 2 * d + 1) (v : ℝ) (p : V3) (n : Nat) :
    Filter.Tendsto (fun h => compAt { e with shape := recover h n e.shape } d i v p) Filter.atTop
      (nhds (compAt { e with shape := recover 0 0 e.shape } d i v p)) := by
  have e0 : ∀ h, compAt { e with shape := recover h 0 e.shape } d i v p = compAt { e with shape := recover 0 0 e.shape } d i v p := by
    intro h
    obtain ⟨f1, c1, k1, -, b1⟩ := recover_count he h 0
    obtain ⟨f2, c2, k2, -, b2⟩ := recover_count he 0 0
    rw [compAt_eq { e with shape := recover h 0 e.shape } d i v p (avail_flat f1 d) hi,
      compAt_eq { e with shape := recover 0 0 e.shape } d i v p (avail_flat f2 d) hi]
    simp only
    rw [contrib_base _ f1, contrib_base _ f2, c1, c2, k1, k2]
    simp [b1, b2]
  rw [tendsto_iff_dist_tendsto_zero]
  have lim : Filter.Tendsto (fun h : ℝ => |v| * extent e.shape * (5 / 2 * ([1, 4, 18, 150, 1620, 17100].getD d 0 / (2 * π * h ^ (d + 2)))))
      Filter.atTop (nhds 0) := by
    have h1 : Filter.Tendsto (fun h : ℝ => h ^ (d + 2)) Filter.atTop Filter.atTop := Filter.tendsto_pow_atTop (by omega)
    have h2 : Filter.Tendsto (fun h : ℝ => 2 * π * h ^ (d + 2)) Filter.atTop Filter.atTop := h1.const_mul_atTop (by positivity)
    have h3 := ((h2.const_div_atTop ([1, 4, 18, 150, 1620, 17100].getD d (0 : ℝ))).const_mul (5 / 2)).const_mul (|v| * extent e.shape)
    simpa using h3
  refine squeeze_zero' (Filter.Eventually.of_forall fun _ => dist_nonneg) ?_ lim
  filter_upwards [Filter.eventually_ge_atTop |p.z|, Filter.eventually_gt_atTop 0] with h hz h0
  have := c128_cover e he d hd i hi v p h h0 hz n
  rw [e0, elementSize, abs_of_pos h0] at this
  rwa [Real.dist_eq]

/-- **C128.** The area in these bounds is the sum of the areas of the paths if they run around their regions counter clockwise. -/
theorem c128_extent (polys : List (List V2)) (h : ℝ) (n : Nat) (hw : ∀ q, 0 ≤ covered polys q) :
    extent (.polygons polys h n) = (polys.map fun path => (areaCentroid path).1).sum := by
  have e : ∀ q : ℝ × ℝ, |(covered polys q : ℝ)| = (covered polys q : ℝ) := fun q => abs_of_nonneg (by exact_mod_cast hw q)
  have s : ∀ polys : List (List V2), Integrable (fun q : ℝ × ℝ => (covered polys q : ℝ)) ∧
      ∫ q : ℝ × ℝ, (covered polys q : ℝ) = (polys.map fun path => (areaCentroid path).1).sum := by
    intro polys
    induction polys with
    | nil => simp [covered]
    | cons a L ih =>
      have hc : (fun q : ℝ × ℝ => (covered (a :: L) q : ℝ)) = fun q => (winding a q : ℝ) + (covered L q : ℝ) := by
        funext q
        simp [covered]
      obtain ⟨h1, h2⟩ := c10_area_region a
      rw [hc, List.map_cons, List.sum_cons, integral_add h1 ih.1, ih.2, ← h2]
      exact ⟨h1.add ih.1, rfl⟩
  simp only [extent, e]
  exact (s polys).2

/-- the unit square seen from ten units away -/
example : beyond 9 ⟨10, 0, 1⟩ (.polygons [unitSquare] 50 0) := by
  refine ⟨fun m h1 h2 => by have : m = 0 := by simpa using le_antisymm (by simpa using h2) (by simpa using h1)
                            simp [this], fun q hq => ?_⟩
  have : winding unitSquare q ≠ 0 := by simpa [covered] using hq
  have := Pixels.winding_box unitSquare 0 1 0 1 (by simp [unitSquare]) q this
  nlinarith [this.1.1, this.1.2, sq_nonneg ((0 : ℝ) - q.2)]

example : |compAt ⟨"a", 1, 0, .polygons [unitSquare] 50 0⟩ 0 0 1 ⟨10, 0, 1⟩| ≤ |1| * extent (.polygons [unitSquare] 50 0) * ([1, 4, 18, 150, 1620, 17100].getD 0 0 / (2 * π * 9 ^ (0 + 2))) :=
  c128_fall ⟨"a", 1, 0, .polygons [unitSquare] 50 0⟩ rfl 0 (by norm_num) 0 (by norm_num) 1 _ 9 (by norm_num) (by
    refine ⟨fun m h1 h2 => by have : m = 0 := by simpa using le_antisymm (by simpa using h2) (by simpa using h1)
                              simp [this], fun q hq => ?_⟩
    have : winding unitSquare q ≠ 0 := by simpa [covered] using hq
    have := Pixels.winding_box unitSquare 0 1 0 1 (by simp [unitSquare]) q this
    nlinarith [this.1.1, this.1.2, sq_nonneg ((0 : ℝ) - q.2)])

/-- a point electrode far away -/
example : beyond 3 ⟨0, 0, 1⟩ (.points [⟨3, 0⟩, ⟨0, -4⟩] [1, 2] 20 2) := by
  refine ⟨fun m h1 h2 => ?_, ?_⟩
  · simp only
    have : (1 : ℤ) + 2 * m * 20 ≠ 0 := by omega
    exact_mod_cast this
  · simp
    norm_num

end Electrode
