import Verif.Spec.Limits
import Verif.Props.Tolerance
import Verif.Props.Distant
import Verif.Props.Robust
import Verif.Props.Cover

/-
C133: bounded voltages give bounded potentials, fields and curvatures, at every height.
-/
namespace Electrode
open Spec Real MeasureTheory ShapeErr Filter

namespace Limit

theorem trap_off {h : ℝ} {n : Nat} {els : List Elec} (ht : polygonTrap h n els) {p : V3} (hp : offPlanes h n p) : offSystem els p := by
  intro e he
  obtain ⟨polys, hs⟩ := ht e he
  unfold offElectrode
  rw [hs]
  exact hp

theorem map_integrable {h : ℝ} {n : Nat} (els : List Elec) (ht : polygonTrap h n els) (typ : VTyp) : Integrable (voltageMap els typ) := by
  induction els with
  | nil => exact (integrable_zero _ _ _).congr (Eventually.of_forall fun q => by simp [voltageMap])
  | cons e L ih =>
    have e1 : voltageMap (e :: L) typ = fun q => (e.volt typ).getD 0 * (coverage q e.shape : ℝ) + voltageMap L typ q := by
      funext q; simp [voltageMap]
    rw [e1]
    refine Integrable.add (Integrable.const_mul ?_ _) (ih fun e he => ht e (List.mem_cons_of_mem _ he))
    obtain ⟨polys, hs⟩ := ht e (by simp)
    rw [hs]
    exact Cover.covered_integrable' polys

theorem contrib_tens (polys : List (List V2)) (h : ℝ) (n : Nat) (l : Idx) (p : V3) :
    tens (fun k i p => (Shape.polygons polys h n).contrib k p i) l.length l p = ∑ m ∈ Finset.Icc (-(n : ℤ)) n, polT polys l (p.lift (2 * m * h)) := by
  have e : (fun k i p => (Shape.polygons polys h n).contrib k p i) = fun k i (p : V3) =>
      ((coverRange n).map fun m : ℤ => (polys.map fun poly => polyComp k i poly (p.lift (2 * (m : ℝ) * h))).sum).sum := by
    funext k i p
    exact polyContrib_swap k n h polys p i
  rw [e, tens_sum (coverRange n) (fun (m : ℤ) k i (p : V3) => (polys.map fun poly => polyComp k i poly (p.lift (2 * (m : ℝ) * h))).sum), coverRange_Icc]
  rfl

theorem weighted_integrable {w : ℝ × ℝ → ℝ} (hw : Integrable w) (l : Idx) (hl : l.length ≤ 5) {p : V3} (hp : p.z ≠ 0) :
    Integrable fun q => w q * pixT l p q :=
  hw.mul_bdd (pixT_measurable l hl p).aestronglyMeasurable (Eventually.of_forall fun q => pixT_le l hl hp q)

theorem tens_integral {h : ℝ} {n : Nat} (els : List Elec) (ht : polygonTrap h n els) (typ : VTyp) (l : Idx) (hl : l.length ≤ 5) {p : V3} (hp : offPlanes h n p) :
    sysTens els typ l p = ∑ m ∈ Finset.Icc (-(n : ℤ)) n, ∫ q : ℝ × ℝ, voltageMap els typ q * pixT l (p.lift (2 * m * h)) q := by
  rw [sysTens_eq]
  have hz : ∀ m ∈ Finset.Icc (-(n : ℤ)) n, (p.lift (2 * m * h)).z ≠ 0 := fun m hm => by
    rw [Finset.mem_Icc] at hm
    exact hp m hm.1 hm.2
  induction els with
  | nil => simp [voltageMap]
  | cons e L ih =>
    have hL : polygonTrap h n L := fun e he => ht e (List.mem_cons_of_mem _ he)
    rw [List.map_cons, List.sum_cons, ih hL]
    obtain ⟨polys, hs⟩ := ht e (by simp)
    rw [hs, contrib_tens, Finset.mul_sum, ← Finset.sum_add_distrib]
    refine Finset.sum_congr rfl fun m hm => ?_
    rw [polT_integral polys l hl _ (hz m hm), ← integral_const_mul,
      ← integral_add ((weighted_integrable (Cover.covered_integrable' polys) l hl (hz m hm)).const_mul _) (weighted_integrable (map_integrable L hL typ) l hl (hz m hm))]
    congr 1
    funext q
    simp only [voltageMap, List.map_cons, List.sum_cons, hs, coverage, Elec.voltD]
    ring

/-- the kernel of the potential, with its images -/
theorem images_pos {h x y z : ℝ} {n : Nat} (hz : 0 < z) (hzh : n = 0 ∨ z < h) (q : ℝ × ℝ) :
    0 ≤ ∑ m ∈ Finset.Icc (-(n : ℤ)) n, pixelAt ⟨x, y, z + 2 * m * h⟩ q := by
  rcases hzh with rfl | hzh
  · simpa using (PolyInt.pixel_pos (p := ⟨x, y, z⟩) hz q).le
  · exact (Cover.floor_pos hz hzh q).le.trans (Cover.pixel_images hz hzh q n)

theorem pixel_mass (x y : ℝ) {z : ℝ} (hz : z ≠ 0) : Integrable (pixelAt ⟨x, y, z⟩) ∧ ∫ q, |pixelAt ⟨x, y, z⟩ q| = 1 := by
  rcases lt_or_gt_of_ne hz with h | h
  · have h1 := PolyInt.pixel_integrable (p := ⟨x, y, -z⟩) (neg_pos.2 h)
    have e : pixelAt ⟨x, y, z⟩ = fun q => -pixelAt ⟨x, y, -z⟩ q := funext fun q => by rw [Cover.pixel_odd, neg_neg]
    rw [e]
    refine ⟨h1.neg, ?_⟩
    simp only [abs_neg]
    have h2 : ∀ q, |pixelAt ⟨x, y, -z⟩ q| = pixelAt ⟨x, y, -z⟩ q := fun q => abs_of_pos (PolyInt.pixel_pos (p := ⟨x, y, -z⟩) (neg_pos.2 h) q)
    simp only [h2]
    exact PolyInt.pixel_total (p := ⟨x, y, -z⟩) (neg_pos.2 h)
  · refine ⟨PolyInt.pixel_integrable (p := ⟨x, y, z⟩) h, ?_⟩
    have h2 : ∀ q, |pixelAt ⟨x, y, z⟩ q| = pixelAt ⟨x, y, z⟩ q := fun q => abs_of_pos (PolyInt.pixel_pos (p := ⟨x, y, z⟩) h q)
    simp only [h2]
    exact PolyInt.pixel_total (p := ⟨x, y, z⟩) h

theorem images_mass (x y : ℝ) {h z : ℝ} (n : Nat) (hz : 0 < z) (hzh : n = 0 ∨ z < h) :
    ∑ m ∈ Finset.Icc (-(n : ℤ)) n, ∫ q, pixelAt ⟨x, y, z + 2 * m * h⟩ q = 1 := by
  have h0 : ∀ z, 0 < z → ∫ q, pixelAt ⟨x, y, z⟩ q = 1 := fun z hz => PolyInt.pixel_total (p := ⟨x, y, z⟩) hz
  rcases hzh with rfl | hzh
  · simpa using h0 z hz
  · have hodd : ∀ z, (∫ q, pixelAt ⟨x, y, -z⟩ q) = -∫ q, pixelAt ⟨x, y, z⟩ q := fun z => by
      simp only [Cover.pixel_odd]
      rw [integral_neg]
    induction n with
    | zero => simpa using h0 z hz
    | succ n ih =>
      rw [Cover.images_succ (f := fun z => ∫ q, pixelAt ⟨x, y, z⟩ q) hodd h z n, ih, Cover.pair]
      have hn : 0 ≤ 2 * (n : ℝ) * h := by have := hz.trans hzh; positivity
      rw [h0 _ (by push_cast; nlinarith), h0 _ (by push_cast; nlinarith)]
      ring

theorem images_ne {h : ℝ} {n : Nat} {p : V3} (hz : 0 < p.z) (hzh : n = 0 ∨ p.z < h) : offPlanes h n p := by
  rcases hzh with rfl | hzh
  · intro m h1 h2
    have : m = 0 := by omega
    simp [this, hz.ne']
  · exact fun m _ _ => Cover.image_ne hz hzh m

/-- the gradient of a surface element is at most `2 / z` times its potential -/
theorem grad_kernel {p : V3} (hp : p.z ≠ 0) (q : ℝ × ℝ) (u : Fin 3 → ℝ) :
    |∑ a, u a * pixT [a] p q| ≤ vlen u * (2 / |p.z|) * |pixelAt p q| := by
  have e : ∀ a, pixT [a] p q = Field.K1 a p q := fun a => by
    have h1 : HasPartial a (fun p => pixT [] p q) (pixT [a] p q) p := pixT_step [] (by simp) a hp q
    simp only [pixT_nil] at h1
    exact HasDerivAt.unique h1 (Field.pixel1 a q hp)
  simp only [e]
  have hs := Field.dst_pos q hp
  have hpi := pi_pos
  have hz : 0 < |p.z| := abs_pos.2 hp
  have hsq : Field.dst q p ^ 2 = (p.x - q.1) ^ 2 + (p.y - q.2) ^ 2 + p.z ^ 2 := by
    unfold Field.dst
    exact Real.sq_sqrt (by positivity)
  have hpix : 2 / |p.z| * |pixelAt p q| = 1 / (π * Field.dst q p ^ 3) := by
    have : pixelAt p q = p.z / (2 * π * Field.dst q p ^ 3) := rfl
    rw [this, abs_div, abs_of_pos (show 0 < 2 * π * Field.dst q p ^ 3 by positivity)]
    field_simp
  have hlen : vlen (fun a => Field.K1 a p q) ≤ 1 / (π * Field.dst q p ^ 3) := by
    refine (sq_le_sq₀ (Rob.vlen_nonneg _) (by positivity)).1 ?_
    rw [Rob.vlen_sq, Fin.sum_univ_three]
    have hz2 : p.z ^ 2 ≤ Field.dst q p ^ 2 := by
      rw [hsq]; nlinarith [sq_nonneg (p.x - q.1), sq_nonneg (p.y - q.2)]
    have e1 : Field.K1 0 p q ^ 2 + Field.K1 1 p q ^ 2 + Field.K1 2 p q ^ 2 = (Field.dst q p ^ 2 + 3 * p.z ^ 2) / (4 * π ^ 2 * Field.dst q p ^ 8) := by
      simp only [Field.K1, MaxP.ez, Field.dif]
      generalize Field.dst q p = s at hs hsq
      field_simp
      have : (p.x - q.1) ^ 2 = s ^ 2 - (p.y - q.2) ^ 2 - p.z ^ 2 := by linarith
      linear_combination (36 * p.z ^ 2) * this
    rw [e1, div_pow, one_pow, div_le_div_iff₀ (by positivity) (by positivity)]
    generalize Field.dst q p = s at hs hz2
    have : 0 ≤ π ^ 2 * s ^ 6 * (s ^ 2 - p.z ^ 2) := mul_nonneg (by positivity) (by linarith)
    nlinarith
  rw [mul_assoc, hpix]
  refine (abs_le.2 ⟨Rob.cs' u _, Rob.cs u _⟩).trans (mul_le_mul_of_nonneg_left hlen (Rob.vlen_nonneg _))

/-- every entry of the tensors of a surface element, compared with its potential -/
theorem tens_kernel (l : Idx) (h1 : 1 ≤ l.length) (hl : l.length ≤ 5) {p : V3} (hp : p.z ≠ 0) (q : ℝ × ℝ) :
    |pixT l p q| ≤ 2 * wgt l.length / |p.z| ^ l.length * |pixelAt p q| := by
  have hs := Field.dst_pos q hp
  have hpi := pi_pos
  have hz : 0 < |p.z| := abs_pos.2 hp
  have hzs : |p.z| ≤ Field.dst q p := by
    unfold Field.dst
    exact Real.abs_le_sqrt (by nlinarith [sq_nonneg (p.x - q.1), sq_nonneg (p.y - q.2)])
  have hw := wgt_nonneg l.length
  have key : ∀ i, |pixelComp l.length i ⟨q.1, q.2⟩ p| ≤ wgt l.length / |p.z| ^ l.length * |pixelAt p q| := fun i => by
    have h2 := pixelComp_far l.length hl i ⟨q.1, q.2⟩ hp (ρ := √((p.x - q.1) ^ 2 + (p.y - q.2) ^ 2)) (by rw [Real.sq_sqrt (by positivity)])
    rw [Real.sq_sqrt (by positivity)] at h2
    have e1 : elementSize l.length √((p.x - q.1) ^ 2 + (p.y - q.2) ^ 2 + p.z ^ 2) = wgt l.length / (2 * π * Field.dst q p ^ (l.length + 2)) := by
      unfold elementSize
      rw [abs_of_nonneg (Real.sqrt_nonneg _)]
      rfl
    rw [e1] at h2
    refine h2.trans ?_
    have e2 : |pixelAt p q| = |p.z| / (2 * π * Field.dst q p ^ 3) := by
      have : pixelAt p q = p.z / (2 * π * Field.dst q p ^ 3) := rfl
      rw [this, abs_div, abs_of_pos (show 0 < 2 * π * Field.dst q p ^ 3 by positivity)]
    rw [e2]
    obtain ⟨k, hk⟩ : ∃ k, l.length = k + 1 := ⟨l.length - 1, by omega⟩
    rw [hk] at hw ⊢
    calc wgt (k + 1) / (2 * π * Field.dst q p ^ (k + 1 + 2)) = wgt (k + 1) / (2 * π * (Field.dst q p ^ k * Field.dst q p ^ 3)) := by ring_nf
      _ ≤ wgt (k + 1) / (2 * π * (|p.z| ^ k * Field.dst q p ^ 3)) := by gcongr
      _ = _ := by field_simp; ring
  have := tens_le (F := fun k i p => pixelComp k i ⟨q.1, q.2⟩ p) (by positivity) key l
  refine this.trans (le_of_eq ?_)
  ring

/-- a weight that is nowhere larger than `V` -/
theorem weight_bound {w : ℝ × ℝ → ℝ} {V : ℝ} (hV : ∀ᵐ q, |w q| ≤ V) {k : ℝ × ℝ → ℝ} {c : ℝ} {p : V3} (hp : p.z ≠ 0)
    (hk : ∀ q, |k q| ≤ c * |pixelAt p q|) : |∫ q, w q * k q| ≤ V * c := by
  have hm := pixel_mass p.x p.y hp
  have h1 : ∀ᵐ q, ‖w q * k q‖ ≤ V * c * |pixelAt p q| := by
    filter_upwards [hV] with q hq
    rw [norm_mul, Real.norm_eq_abs, Real.norm_eq_abs, mul_assoc]
    exact mul_le_mul hq (hk q) (abs_nonneg _) ((abs_nonneg _).trans hq)
  have h2 := norm_integral_le_of_norm_le (hm.1.abs.const_mul (V * c)) h1
  rw [integral_const_mul] at h2
  have h3 : ∫ q, |pixelAt p q| = 1 := hm.2
  rw [h3, mul_one] at h2
  exact h2

end Limit
open Limit

/-- **C133.** Above the plane (and below the cover, if there is one), the potential lies between the lowest and the highest voltage of the plane. -/
theorem c133_potential (els : List Elec) (h : ℝ) (n : Nat) (ht : polygonTrap h n els) (typ : VTyp) (lo hi : ℝ)
    (hv : ∀ᵐ q : ℝ × ℝ, lo ≤ voltageMap els typ q ∧ voltageMap els typ q ≤ hi) (p : V3) (hz : 0 < p.z) (hzh : n = 0 ∨ p.z < h) :
    lo ≤ electricalAt els typ [] p ∧ electricalAt els typ [] p ≤ hi := by
  have hoff : offPlanes h n p := images_ne hz hzh
  rw [electricalAt_eq els typ [] (by simp) p (avail_of_off (trap_off ht hoff) _ _), tens_integral els ht typ [] (by simp) hoff]
  have hne : ∀ m ∈ Finset.Icc (-(n : ℤ)) n, (p.lift (2 * m * h)).z ≠ 0 := fun m hm => by
    rw [Finset.mem_Icc] at hm
    exact hoff m hm.1 hm.2
  simp only [pixT_nil]
  have hw := map_integrable els ht typ
  have i1 : ∀ m ∈ Finset.Icc (-(n : ℤ)) n, Integrable fun q => voltageMap els typ q * pixelAt (p.lift (2 * m * h)) q := fun m hm =>
    Cover.weight_integrable hw p.x p.y (hne m hm)
  have i2 : ∀ m ∈ Finset.Icc (-(n : ℤ)) n, Integrable (pixelAt (p.lift (2 * m * h))) := fun m hm => (pixel_mass p.x p.y (hne m hm)).1
  have hmass : ∑ m ∈ Finset.Icc (-(n : ℤ)) n, ∫ q, pixelAt (p.lift (2 * m * h)) q = 1 := images_mass p.x p.y n hz hzh
  have hpos : ∀ q, 0 ≤ ∑ m ∈ Finset.Icc (-(n : ℤ)) n, pixelAt (p.lift (2 * m * h)) q := fun q => images_pos (x := p.x) (y := p.y) hz hzh q
  rw [← integral_finsetSum _ i1]
  rw [← integral_finsetSum _ i2] at hmass
  have i3 := integrable_finsetSum _ i2
  have i4 := integrable_finsetSum _ i1
  have e : ∀ c : ℝ, c = ∫ q, c * ∑ m ∈ Finset.Icc (-(n : ℤ)) n, pixelAt (p.lift (2 * m * h)) q := fun c => by
    rw [integral_const_mul, hmass, mul_one]
  constructor
  · rw [e lo]
    refine integral_mono_ae (i3.const_mul lo) i4 ?_
    filter_upwards [hv] with q hq
    rw [← Finset.mul_sum]
    exact mul_le_mul_of_nonneg_right hq.1 (hpos q)
  · rw [e hi]
    refine integral_mono_ae i4 (i3.const_mul hi) ?_
    filter_upwards [hv] with q hq
    rw [← Finset.mul_sum]
    exact mul_le_mul_of_nonneg_right hq.2 (hpos q)

/-- **C133.** The field at the height `z` is at most `2 V / z` if no voltage of the plane exceeds `V`; a cover adds the same for each image. -/
theorem c133_field (els : List Elec) (h : ℝ) (n : Nat) (ht : polygonTrap h n els) (typ : VTyp) (V : ℝ) (hv : ∀ᵐ q : ℝ × ℝ, |voltageMap els typ q| ≤ V)
    (p : V3) (hp : offPlanes h n p) :
    vlen (fun a => electricalAt els typ [a] p) ≤ ∑ m ∈ Finset.Icc (-(n : ℤ)) n, 2 * V / |p.z + 2 * m * h| := by
  set g : Fin 3 → ℝ := fun a => electricalAt els typ [a] p with hg
  have hne : ∀ m ∈ Finset.Icc (-(n : ℤ)) n, (p.lift (2 * m * h)).z ≠ 0 := fun m hm => by
    rw [Finset.mem_Icc] at hm
    exact hp m hm.1 hm.2
  have hw := map_integrable els ht typ
  have eg : ∀ a, g a = ∑ m ∈ Finset.Icc (-(n : ℤ)) n, ∫ q : ℝ × ℝ, voltageMap els typ q * pixT [a] (p.lift (2 * m * h)) q := fun a => by
    rw [hg]
    simp only
    rw [electricalAt_eq els typ [a] (by simp) p (avail_of_off (trap_off ht hp) _ _), tens_integral els ht typ [a] (by simp) hp]
  have h1 : vlen g ^ 2 ≤ vlen g * ∑ m ∈ Finset.Icc (-(n : ℤ)) n, 2 * V / |p.z + 2 * m * h| := by
    have e1 : vlen g ^ 2 = ∑ m ∈ Finset.Icc (-(n : ℤ)) n, ∫ q : ℝ × ℝ, voltageMap els typ q * ∑ a, g a * pixT [a] (p.lift (2 * m * h)) q := by
      rw [Rob.vlen_sq]
      have e2 : ∀ a, g a ^ 2 = ∑ m ∈ Finset.Icc (-(n : ℤ)) n, g a * ∫ q : ℝ × ℝ, voltageMap els typ q * pixT [a] (p.lift (2 * m * h)) q := fun a => by
        rw [sq]
        conv_lhs => rw [eg a]
        rw [← eg a, ← Finset.mul_sum, ← eg a]
      simp only [e2]
      rw [Finset.sum_comm]
      refine Finset.sum_congr rfl fun m hm => ?_
      have e3 : (fun q => voltageMap els typ q * ∑ a, g a * pixT [a] (p.lift (2 * m * h)) q)
          = fun q => ∑ a, g a * (voltageMap els typ q * pixT [a] (p.lift (2 * m * h)) q) := by
        funext q
        rw [Finset.mul_sum]
        exact Finset.sum_congr rfl fun a _ => by ring
      rw [e3, integral_finsetSum _ fun a _ => (weighted_integrable hw [a] (by simp) (hne m hm)).const_mul _]
      exact Finset.sum_congr rfl fun a _ => (integral_const_mul _ _).symm
    rw [e1, Finset.mul_sum]
    refine Finset.sum_le_sum fun m hm => (le_abs_self _).trans ?_
    have := weight_bound hv (c := vlen g * (2 / |(p.lift (2 * m * h)).z|)) (hne m hm)
      fun q => grad_kernel (hne m hm) q g
    refine this.trans (le_of_eq ?_)
    show V * (vlen g * (2 / |p.z + 2 * m * h|)) = _
    ring
  rcases (Rob.vlen_nonneg g).eq_or_lt with h0 | h0
  · rw [← h0]
    have hV : 0 ≤ V := by
      obtain ⟨q, hq⟩ := hv.exists
      exact (abs_nonneg _).trans hq
    positivity
  · rw [sq] at h1
    exact le_of_mul_le_mul_left h1 h0

/-- **C133.** Entries of the derivatives of order `d` are at most `2 c V / z^d` with `c` = 4, 18, 150, 1620, 17100; a cover adds the same for each
image. -/
theorem c133_derivatives (els : List Elec) (h : ℝ) (n : Nat) (ht : polygonTrap h n els) (typ : VTyp) (V : ℝ)
    (hv : ∀ᵐ q : ℝ × ℝ, |voltageMap els typ q| ≤ V) (l : Idx) (h1 : 1 ≤ l.length) (hl : l.length ≤ 5) (p : V3) (hp : offPlanes h n p) :
    |electricalAt els typ l p| ≤ ∑ m ∈ Finset.Icc (-(n : ℤ)) n, 2 * [1, 4, 18, 150, 1620, 17100].getD l.length 0 * V / |p.z + 2 * m * h| ^ l.length := by
  rw [electricalAt_eq els typ l (by omega) p (avail_of_off (trap_off ht hp) _ _), tens_integral els ht typ l hl hp]
  refine (Finset.abs_sum_le_sum_abs _ _).trans (Finset.sum_le_sum fun m hm => ?_)
  have hne : (p.lift (2 * m * h)).z ≠ 0 := by
    rw [Finset.mem_Icc] at hm
    exact hp m hm.1 hm.2
  have hz : 0 < |(p.lift (2 * m * h)).z| := abs_pos.2 hne
  have hw := wgt_nonneg l.length
  refine (weight_bound hv (c := 2 * wgt l.length / |(p.lift (2 * m * h)).z| ^ l.length) hne fun q => tens_kernel l h1 hl hne q).trans
    (le_of_eq ?_)
  show V * (2 * wgt l.length / |p.z + 2 * m * h| ^ l.length) = _
  unfold wgt
  ring

namespace Limit

theorem map_le (els : List Elec) (typ : VTyp) {V : ℝ} (hv : ∀ e ∈ els, |(e.volt typ).getD 0| ≤ V) (q : ℝ × ℝ) :
    |voltageMap els typ q| ≤ V * ((els.map fun e => |coverage q e.shape|).sum : ℤ) := by
  induction els with
  | nil => simp [voltageMap]
  | cons e L ih =>
    have e1 : voltageMap (e :: L) typ q = (e.volt typ).getD 0 * (coverage q e.shape : ℝ) + voltageMap L typ q := by simp [voltageMap]
    rw [e1, List.map_cons, List.sum_cons]
    push_cast
    have h1 := ih fun e he => hv e (List.mem_cons_of_mem _ he)
    have h2 : |(e.volt typ).getD 0 * (coverage q e.shape : ℝ)| ≤ V * |(coverage q e.shape : ℝ)| := by
      rw [abs_mul]
      exact mul_le_mul_of_nonneg_right (hv e (by simp)) (abs_nonneg _)
    push_cast at h1
    refine (abs_add_le _ _).trans ?_
    linarith

theorem map_bound (els : List Elec) (typ : VTyp) {V : ℝ} (h0 : 0 ≤ V) (hv : ∀ e ∈ els, |(e.volt typ).getD 0| ≤ V) (hs : separate els) :
    ∀ᵐ q : ℝ × ℝ, |voltageMap els typ q| ≤ V := by
  filter_upwards [hs] with q hq
  refine (map_le els typ hv q).trans ?_
  have : (((els.map fun e => |coverage q e.shape|).sum : ℤ) : ℝ) ≤ 1 := by exact_mod_cast hq
  nlinarith

/-- the electrodes with the differences of the voltages -/
noncomputable def differ (typ : VTyp) (els els' : List Elec) : List Elec :=
  List.zipWith (fun e e' => let v := (e'.volt typ).getD 0 - (e.volt typ).getD 0; ⟨"", v, v, e.shape⟩) els els'

variable {typ : VTyp} {δ : ℝ} {els els' : List Elec}

theorem differ_trap {h : ℝ} {n : Nat} (hd : List.Forall₂ (nearVoltage typ δ) els els') (ht : polygonTrap h n els) : polygonTrap h n els' ∧ polygonTrap h n (differ typ els els') := by
  induction hd with
  | nil => exact ⟨fun e he => by simp at he, fun e he => by simp [differ] at he⟩
  | @cons e e' L L' h1 _ ih =>
    obtain ⟨i1, i2⟩ := ih fun e he => ht e (List.mem_cons_of_mem _ he)
    have h3 := ht e (by simp)
    refine ⟨fun a ha => ?_, fun a ha => ?_⟩
    · rcases List.mem_cons.1 ha with rfl | ha
      · rw [h1.1]; exact h3
      · exact i1 a ha
    · rcases List.mem_cons.1 (show a ∈ _ :: differ typ L L' from ha) with rfl | ha
      · exact h3
      · exact i2 a ha

theorem differ_volt (hn : typ ≠ .other) (hd : List.Forall₂ (nearVoltage typ δ) els els') : ∀ e ∈ differ typ els els', |(e.volt typ).getD 0| ≤ δ := by
  induction hd with
  | nil => simp [differ]
  | @cons e e' L L' h1 _ ih =>
    intro a ha
    rcases List.mem_cons.1 (show a ∈ _ :: differ typ L L' from ha) with rfl | ha
    · cases typ
      · exact h1.2
      · exact h1.2
      · exact absurd rfl hn
    · exact ih a ha

theorem differ_separate (hd : List.Forall₂ (nearVoltage typ δ) els els') (hs : separate els) : separate (differ typ els els') := by
  have e : ∀ q, (differ typ els els').map (fun e => |coverage q e.shape|) = els.map fun e => |coverage q e.shape| := fun q => by
    clear hs
    induction hd with
    | nil => simp [differ]
    | cons _ _ ih =>
      simp only [differ] at ih
      simp only [differ, List.zipWith_cons_cons, List.map_cons, ih]
  unfold separate
  simp only [e]
  exact hs

theorem differ_tens (hn : typ ≠ .other) (hd : List.Forall₂ (nearVoltage typ δ) els els') (l : Idx) (p : V3) :
    sysTens (differ typ els els') typ l p = sysTens els' typ l p - sysTens els typ l p := by
  simp only [sysTens_eq]
  induction hd with
  | nil => simp [differ]
  | @cons e e' L L' h1 _ ih =>
    simp only [differ] at ih
    simp only [differ, List.zipWith_cons_cons, List.map_cons, List.sum_cons, ih, h1.1]
    have : (Elec.mk "" ((e'.volt typ).getD 0 - (e.volt typ).getD 0) ((e'.volt typ).getD 0 - (e.volt typ).getD 0) e.shape).voltD typ = e'.voltD typ - e.voltD typ := by
      cases typ
      · rfl
      · rfl
      · exact absurd rfl hn
    rw [this]
    ring

theorem differ_at {h : ℝ} {n : Nat} (hn : typ ≠ .other) (hd : List.Forall₂ (nearVoltage typ δ) els els') (ht : polygonTrap h n els) (l : Idx) (hl : l.length ≤ 5)
    {p : V3} (hp : offPlanes h n p) : electricalAt (differ typ els els') typ l p = electricalAt els' typ l p - electricalAt els typ l p := by
  obtain ⟨h1, h2⟩ := differ_trap hd ht
  rw [electricalAt_eq _ typ l (by omega) p (avail_of_off (trap_off ht hp) _ _), electricalAt_eq _ typ l (by omega) p (avail_of_off (trap_off h1 hp) _ _),
    electricalAt_eq _ typ l (by omega) p (avail_of_off (trap_off h2 hp) _ _), differ_tens hn hd]

end Limit

/-- **C133.** Electrodes that do not overlap: the voltages of the electrodes bound the potential and the field. -/
theorem c133_separate (els : List Elec) (h : ℝ) (n : Nat) (ht : polygonTrap h n els) (hs : separate els) (typ : VTyp) (V : ℝ) (h0 : 0 ≤ V)
    (hv : ∀ e ∈ els, |(e.volt typ).getD 0| ≤ V) (p : V3) (hz : 0 < p.z) (hzh : n = 0 ∨ p.z < h) :
    |electricalAt els typ [] p| ≤ V ∧ vlen (fun a => electricalAt els typ [a] p) ≤ ∑ m ∈ Finset.Icc (-(n : ℤ)) n, 2 * V / |p.z + 2 * m * h| := by
  have hm := map_bound els typ h0 hv hs
  refine ⟨?_, c133_field els h n ht typ V hm p (images_ne hz hzh)⟩
  have := c133_potential els h n ht typ (-V) V (by filter_upwards [hm] with q hq using abs_le.1 hq) p hz hzh
  exact abs_le.2 this

/-- **C133.** Errors of the voltages (those of the supplies, of rounded digits): if no voltage is off by more than `δ`, the potential is not off by more
than `δ`, the field not by more than `2 δ / z` (for each image), and derivatives of order `d` not by more than `2 c δ / z^d`. -/
theorem c133_errors (els els' : List Elec) (h : ℝ) (n : Nat) (ht : polygonTrap h n els) (hs : separate els) (typ : VTyp) (hn : typ ≠ .other) (δ : ℝ) (h0 : 0 ≤ δ)
    (hd : List.Forall₂ (nearVoltage typ δ) els els') (p : V3) (hz : 0 < p.z) (hzh : n = 0 ∨ p.z < h) :
    |electricalAt els' typ [] p - electricalAt els typ [] p| ≤ δ ∧
      vlen (fun a => electricalAt els' typ [a] p - electricalAt els typ [a] p) ≤ ∑ m ∈ Finset.Icc (-(n : ℤ)) n, 2 * δ / |p.z + 2 * m * h| ∧
      ∀ l : Idx, 1 ≤ l.length → l.length ≤ 5 → |electricalAt els' typ l p - electricalAt els typ l p|
        ≤ ∑ m ∈ Finset.Icc (-(n : ℤ)) n, 2 * [1, 4, 18, 150, 1620, 17100].getD l.length 0 * δ / |p.z + 2 * m * h| ^ l.length := by
  have hp : offPlanes h n p := images_ne hz hzh
  have h2 := (differ_trap hd ht).2
  have hv := differ_volt hn hd
  have hs2 := differ_separate hd hs
  obtain ⟨h3, h4⟩ := c133_separate _ h n h2 hs2 typ δ h0 hv p hz hzh
  refine ⟨?_, ?_, fun l l1 l2 => ?_⟩
  · rw [← differ_at hn hd ht [] (by simp) hp]
    exact h3
  · have e : (fun a => electricalAt els' typ [a] p - electricalAt els typ [a] p) = fun a : Fin 3 => electricalAt (differ typ els els') typ [a] p := by
      funext a
      exact (differ_at hn hd ht [a] (by simp) hp).symm
    rw [e]
    exact h4
  · rw [← differ_at hn hd ht l l2 hp]
    exact c133_derivatives _ h n h2 typ δ (map_bound _ typ h0 hv hs2) l l1 l2 p hp

/-- **C133.** The pseudopotential at the height `z` is at most `(2 c V / z)²` for rf amplitudes of at most `V`: without cover, no geometry of the electrodes
gives deeper traps. -/
theorem c133_depth (els : List Elec) (h : ℝ) (ht : polygonTrap h 0 els) (hs : separate els) (c V : ℝ) (h0 : 0 ≤ V) (hv : ∀ e ∈ els, |e.rf| ≤ V) (p : V3)
    (hz : 0 < p.z) : pseudoAt ⟨els, some c⟩ [] p ≤ (2 * c * V / p.z) ^ 2 := by
  have hp : offPlanes h 0 p := images_ne hz (.inl rfl)
  have hoff := trap_off ht hp
  have e : pseudoAt ⟨els, some c⟩ [] p = c ^ 2 * vlen (fun a => electricalAt els .rf [a] p) ^ 2 := by
    rw [pseudoAt_eq els c [] (by simp) p fun i _ _ => avail_of_off hoff _ _, Rob.vlen_sq]
    have := fun a : Fin 3 => electricalAt_eq els .rf [a] (by simp) p (avail_of_off hoff _ _)
    simp only [this]
    simp [psT, Fin.sum_univ_three]
    ring
  have h1 := (c133_separate els h 0 ht hs .rf V h0 hv p hz (.inl rfl)).2
  simp only [Nat.cast_zero, neg_zero, Finset.Icc_self, Finset.sum_singleton, Int.cast_zero, mul_zero, zero_mul, add_zero, abs_of_pos hz] at h1
  rw [e]
  have h2 := pow_le_pow_left₀ (Rob.vlen_nonneg _) h1 2
  calc _ ≤ c ^ 2 * (2 * V / p.z) ^ 2 := mul_le_mul_of_nonneg_left h2 (sq_nonneg c)
    _ = _ := by ring

namespace Limit

/-- the gradients of the total potential differ by the gradients of the static potential if the rf amplitudes are the same -/
theorem slope_diff {els els' : List Elec} {δ h : ℝ} {n : Nat} (hd : List.Forall₂ (nearVoltage .dc δ) els els') (hr : List.Forall₂ (fun e e' => e'.rf = e.rf) els els')
    (ht : polygonTrap h n els) (c : ℝ) {x : Fin 3 → ℝ} (hp : offPlanes h n (toV3 x)) :
    slopeAt ⟨els', some c⟩ x - slopeAt ⟨els, some c⟩ x = fun a => electricalAt els' .dc [a] (toV3 x) - electricalAt els .dc [a] (toV3 x) := by
  have h1 := trap_off ht hp
  have h2 := trap_off (differ_trap hd ht).1 hp
  have e : ∀ l, sysTens els' .rf l (toV3 x) = sysTens els .rf l (toV3 x) := fun l => by
    simp only [sysTens_eq]
    congr 1
    clear h1 h2 ht
    induction hd with
    | nil => rfl
    | cons a _ ih =>
      cases hr with
      | cons b hr => rw [List.map_cons, List.map_cons, ih hr, a.1]; simp only [Elec.voltD, Elec.volt, b]
  funext a
  show totalAt _ [a] _ - totalAt _ [a] _ = _
  rw [total_split els' c [a] (by simp) _ fun d typ => avail_of_off h2 d typ, total_split els c [a] (by simp) _ fun d typ => avail_of_off h1 d typ,
    electricalAt_eq els' .dc [a] (by simp) _ (avail_of_off h2 _ _), electricalAt_eq els .dc [a] (by simp) _ (avail_of_off h1 _ _)]
  simp only [e]
  ring

theorem slope_error {els els' : List Elec} {δ h z0 : ℝ} (h0 : 0 ≤ δ) (hs : separate els) (hd : List.Forall₂ (nearVoltage .dc δ) els els')
    (hr : List.Forall₂ (fun e e' => e'.rf = e.rf) els els') (ht : polygonTrap h 0 els) (c : ℝ) {x : Fin 3 → ℝ} (hz : 0 < z0) (hx : z0 ≤ x 2) :
    vlen (slopeAt ⟨els, some c⟩ x - slopeAt ⟨els', some c⟩ x) ≤ 2 * δ / z0 := by
  have hzx : 0 < (toV3 x).z := hz.trans_le hx
  have e : vlen (slopeAt ⟨els, some c⟩ x - slopeAt ⟨els', some c⟩ x) = vlen (slopeAt ⟨els', some c⟩ x - slopeAt ⟨els, some c⟩ x) := by
    unfold vlen
    congr 1
    exact Finset.sum_congr rfl fun a _ => by simp only [Pi.sub_apply]; ring
  rw [e, slope_diff hd hr ht c (images_ne hzx (.inl rfl))]
  refine ((c133_errors els els' h 0 ht hs .dc (by simp) δ h0 hd (toV3 x) hzx (.inl rfl)).2.1).trans ?_
  simp only [Nat.cast_zero, neg_zero, Finset.Icc_self, Finset.sum_singleton, Int.cast_zero, mul_zero, zero_mul, add_zero, abs_of_pos hzx]
  exact div_le_div_of_nonneg_left (by positivity) hz hx

end Limit

/-- **C133.** Errors of dc voltages of at most `δ` move a minimum at a height of at least `z0`, with curvatures of at least `lam`, by at most
`2 δ / (z0 lam)`; it survives if this is less than the radius of the ball with these curvatures. -/
theorem c133_minimum (els els' : List Elec) (h : ℝ) (ht : polygonTrap h 0 els) (hs : separate els) (δ : ℝ) (h0 : 0 ≤ δ)
    (hd : List.Forall₂ (nearVoltage .dc δ) els els') (hr : List.Forall₂ (fun e e' => e'.rf = e.rf) els els') (c : ℝ) (x0 : Fin 3 → ℝ) (R : ℝ) (hR : 0 < R)
    (z0 : ℝ) (hz : 0 < z0) (hz0 : ∀ x ∈ rball x0 R, z0 ≤ x 2) (lam : ℝ) (hl : 0 < lam) (hst : Stiff ⟨els, some c⟩ lam (rball x0 R))
    (hg : slopeAt ⟨els, some c⟩ x0 = 0) (hδ : 2 * δ / z0 < lam * R) :
    (∃ x1 ∈ rball x0 R, slopeAt ⟨els', some c⟩ x1 = 0 ∧ ∀ y ∈ rball x0 R, valueAt ⟨els', some c⟩ x1 ≤ valueAt ⟨els', some c⟩ y) ∧
      ∀ x1 ∈ rball x0 R, slopeAt ⟨els', some c⟩ x1 = 0 → vlen (x1 - x0) ≤ 2 * δ / (z0 * lam) := by
  have hcl : ∀ els, polygonTrap h 0 els → clearOf ⟨els, some c⟩ (rball x0 R) := fun els ht x hx =>
    trap_off ht (images_ne (p := toV3 x) (hz.trans_le (hz0 x hx)) (.inl rfl))
  have herr : ∀ x ∈ rball x0 R, vlen (slopeAt ⟨els, some c⟩ x - slopeAt ⟨els', some c⟩ x) ≤ 2 * δ / z0 := fun x hx =>
    slope_error h0 hs hd hr ht c hz (hz0 x hx)
  refine ⟨c130_survives els els' c c x0 R hR (hcl els ht) (hcl els' (differ_trap hd ht).1) lam hst hg _ herr hδ, fun x1 h1 hg1 => ?_⟩
  refine (c130_shift els els' c c _ (Rob.rball_convex x0 R) (hcl els ht) lam hl hst x0 x1 (Rob.center_mem x0 hR) h1 hg hg1).trans ?_
  rw [← div_div]
  exact div_le_div_of_nonneg_right (herr x1 h1) hl.le

/-- two squares side by side, with voltages 1 and -2 -/
noncomputable def squarePair : List Elec :=
  [⟨"a", 1, 3, .polygons [unitSquare] 50 0⟩, ⟨"b", -2, 0, .polygons [[⟨1, 0⟩, ⟨2, 0⟩, ⟨2, 1⟩, ⟨1, 1⟩]] 50 0⟩]

theorem squarePair_separate : separate squarePair := by
  refine Eventually.of_forall fun q => ?_
  have h2 : covered [[⟨1, 0⟩, ⟨2, 0⟩, ⟨2, 1⟩, ⟨1, 1⟩]] q = if 1 ≤ q.1 ∧ q.1 < 2 ∧ 0 ≤ q.2 ∧ q.2 < 1 then 1 else 0 := by
    simp only [covered, List.map_cons, List.map_nil, List.sum_cons, List.sum_nil, add_zero]
    exact winding_rect q 1 2 0 1 (by norm_num) (by norm_num)
  simp only [squarePair, List.map_cons, List.map_nil, List.sum_cons, List.sum_nil, coverage, covered_square, h2, add_zero]
  split_ifs with a b
  · exact absurd a.2.1 (not_lt.2 b.1)
  all_goals norm_num

theorem squarePair_trap : polygonTrap 50 0 squarePair := by
  intro e he
  simp only [squarePair, List.mem_cons, List.not_mem_nil, or_false] at he
  rcases he with rfl | rfl <;> exact ⟨_, rfl⟩

example (p : V3) (hz : 0 < p.z) : |electricalAt squarePair .dc [] p| ≤ 2 ∧ pseudoAt ⟨squarePair, some 1⟩ [] p ≤ (6 / p.z) ^ 2 := by
  refine ⟨(c133_separate squarePair 50 0 squarePair_trap squarePair_separate .dc 2 (by norm_num) ?_ p hz (.inl rfl)).1, ?_⟩
  · simp [squarePair, Elec.volt]
  · refine (c133_depth squarePair 50 squarePair_trap squarePair_separate 1 3 (by norm_num) ?_ p hz).trans (le_of_eq (by norm_num))
    simp [squarePair]

end Electrode
