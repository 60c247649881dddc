import Verif.Lemmas.Layout
import Verif.Props.Tensor
import Verif.Props.Modes

/-
C126: turning, mirroring or moving a layout in its plane turns, mirrors and moves its potentials, and symmetric layouts have
symmetric potentials.
-/
namespace Electrode
open Spec Real PlaneMotion

theorem sysTens_motion (M : PlaneMotion) (s : List Elec) (typ : VTyp) (l : Idx) (hl : l.length ≤ 5) (p : V3) (hp : offSystem s p) :
    sysTens (s.map M.elec) typ l (M.on3 p) = contractRec M.matrix.transpose (fun m => sysTens s typ m p) l :=
  turn_tensors 5 (offSystem s) (offSystem (s.map M.elec)) M (offSystem_open s) (sysTens s typ) (sysTens (s.map M.elec) typ)
    (off_motion M s) (fun l hl => sysTens_smooth s typ l hl) (fun l a hl p hp => sys_step s typ l a (by omega) p hp)
    (fun l a hl p hp => sys_step _ typ l a (by omega) p hp) (sysTens_motion0 M s typ) l hl p hp

/-- **C126.** The derivative tensors, of all orders up to five, of a turned, mirrored or moved layout at the turned position are the
turned tensors of the layout. -/
theorem c126_motion (M : PlaneMotion) (s : List Elec) (typ : VTyp) (l : Idx) (hl : l.length ≤ 5) (p : V3) (hp : offSystem s p) :
    electricalAt (s.map M.elec) typ l (M.on3 p) = contraction (fun m => electricalAt s typ m p) M.matrix.transpose l := by
  rw [electricalAt_eq _ typ l (by omega) _ (avail_of_off (off_motion M s p hp) _ _), sysTens_motion M s typ l hl p hp, contractRec_eq]
  refine contractRec_congr _ l fun ks hk => ?_
  exact (electricalAt_eq s typ ks (by omega) p (avail_of_off hp _ _)).symm

/-- The same in terms of `rotate_tensor`. -/
theorem c126_rotate_tensor (M : PlaneMotion) (s : List Elec) (typ : VTyp) (l : Idx) (h1 : 1 ≤ l.length) (hl : l.length ≤ 5) (p : V3)
    (hp : offSystem s p) : electricalAt (s.map M.elec) typ l (M.on3 p) =
      rotateTensor l.length (fun m => electricalAt s typ m p) M.matrix.transpose none l := by
  rw [c08_rotate_contraction l.length h1 _ _ l rfl, c126_motion M s typ l hl p hp]

theorem ps_motion0 (M : PlaneMotion) (s : List Elec) (c : ℝ) (p : V3) (hp : offSystem s p) :
    psT (fun l => c * sysTens (s.map M.elec) .rf l (M.on3 p)) [] = psT (fun l => c * sysTens s .rf l p) [] := by
  have h1 := M.unit
  have h2 := M.sign_mul
  simp only [psT, sysTens_motion M s .rf [_] (by simp) p hp, contractRec, Matrix.transpose_apply, Fin.sum_univ_three]
  simp [PlaneMotion.matrix]
  generalize sysTens s .rf [0] p = u
  generalize sysTens s .rf [1] p = v
  generalize sysTens s .rf [2] p = w
  linear_combination c ^ 2 * (u ^ 2 + M.sign * M.sign * v ^ 2) * h1 + c ^ 2 * v ^ 2 * h2

theorem off_total (M : PlaneMotion) (s : List Elec) (c : ℝ) (p : V3) (hp : offSystem s p) :
    totalAt ⟨s.map M.elec, some c⟩ [] (M.on3 p) = totalAt ⟨s, some c⟩ [] p := by
  rw [total_split _ c [] (by simp) _ fun d typ => avail_of_off (off_motion M s p hp) d typ,
    total_split s c [] (by simp) p fun d typ => avail_of_off hp d typ, sysTens_motion0 M s .dc p hp, ps_motion0 M s c p hp]

/-- **C126.** The same for the combined potential, up to order four. -/
theorem c126_total (M : PlaneMotion) (s : List Elec) (c : ℝ) (l : Idx) (hl : l.length ≤ 4) (p : V3) (hp : offSystem s p) :
    totalAt ⟨s.map M.elec, some c⟩ l (M.on3 p) = contraction (fun m => totalAt ⟨s, some c⟩ m p) M.matrix.transpose l := by
  rw [contractRec_eq]
  exact turn_tensors 4 (offSystem s) (offSystem (s.map M.elec)) M (offSystem_open s) (totalAt ⟨s, some c⟩)
    (totalAt ⟨s.map M.elec, some c⟩) (off_motion M s) (fun l hl => total_smooth s c l hl)
    (fun l a hl p hp => total_step s c l a (by omega) p hp) (fun l a hl p hp => total_step _ c l a (by omega) p hp)
    (off_total M s c) l hl p hp

/-! ### Symmetric layouts -/

theorem contrib_same (e e' : Elec) (h : sameShape e.shape e'.shape) (d : Nat) (p : V3) (i : Nat) :
    e.shape.contrib d p i = e'.shape.contrib d p i := by
  cases h1 : e.shape <;> cases h2 : e'.shape <;> rw [h1, h2] at h <;> try exact h.elim
  · obtain rfl := h; rfl
  · obtain ⟨rfl, rfl, h⟩ := h
    simp only [Shape.contrib, pointContrib]
    exact (h.map _).sum_eq
  · obtain ⟨rfl, rfl, a', h3, h4⟩ := h
    simp only [Shape.contrib, polyContrib]
    rw [(h3.map _).sum_eq]
    refine forall₂_sum h4 ?_
    rintro a _ ⟨k, rfl⟩
    simp only [poly_rotate]

theorem sysTens_same (s t : List Elec) (h : sameLayout s t) (typ : VTyp) (l : Idx) (p : V3) : sysTens s typ l p = sysTens t typ l p := by
  obtain ⟨u, h1, h2⟩ := h
  rw [sysTens_eq, sysTens_eq, (h1.map _).sum_eq]
  refine forall₂_sum h2 ?_
  rintro a b ⟨hdc, hrf, hs⟩
  have hv : a.voltD typ = b.voltD typ := by cases typ <;> simp [Elec.voltD, Elec.volt, hdc, hrf]
  rw [hv]
  congr 2
  funext k i p
  exact contrib_same a b hs k p i

/-- a system given in another order has the same potentials -/
theorem c126_same (s t : List Elec) (h : sameLayout s t) (typ : VTyp) (l : Idx) (hl : l.length ≤ 5) (p : V3) (hs : offSystem s p)
    (ht : offSystem t p) : electricalAt s typ l p = electricalAt t typ l p := by
  rw [electricalAt_eq s typ l (by omega) p (avail_of_off hs _ _), electricalAt_eq t typ l (by omega) p (avail_of_off ht _ _),
    sysTens_same s t h]

/-- **C126.** A layout that a turn, mirror image or move takes to itself has the symmetric tensors: those at the image of a position
are the turned tensors at the position. -/
theorem c126_symmetric (M : PlaneMotion) (s : List Elec) (h : sameLayout (s.map M.elec) s) (typ : VTyp) (l : Idx) (hl : l.length ≤ 5)
    (p : V3) (hp : offSystem s p) :
    electricalAt s typ l (M.on3 p) = contraction (fun m => electricalAt s typ m p) M.matrix.transpose l := by
  rw [← c126_motion M s typ l hl p hp, electricalAt_eq s typ l (by omega) _ (avail_of_off hp _ _),
    electricalAt_eq _ typ l (by omega) _ (avail_of_off (off_motion M s p hp) _ _), sysTens_same _ _ h]

theorem total_same (s t : List Elec) (h : sameLayout s t) (c : ℝ) (l : Idx) (hl : l.length ≤ 4) (p q q' : V3) (hs : offSystem s q)
    (ht : offSystem t q') : totalAt ⟨s, some c⟩ l p = totalAt ⟨t, some c⟩ l p := by
  rw [total_split s c l hl p fun d typ => avail_of_off hs d typ, total_split t c l hl p fun d typ => avail_of_off ht d typ,
    sysTens_same s t h]
  congr 2
  funext m
  rw [sysTens_same s t h]

/-- **C126.** The same for the combined potential. -/
theorem c126_symmetric_total (M : PlaneMotion) (s : List Elec) (h : sameLayout (s.map M.elec) s) (c : ℝ) (l : Idx) (hl : l.length ≤ 4)
    (p : V3) (hp : offSystem s p) :
    totalAt ⟨s, some c⟩ l (M.on3 p) = contraction (fun m => totalAt ⟨s, some c⟩ m p) M.matrix.transpose l := by
  rw [← c126_total M s c l hl p hp]
  exact (total_same _ _ h c l hl _ _ _ (off_motion M s p hp) hp).symm

/-- the potentials themselves take the same values at both positions -/
theorem c126_symmetric_values (M : PlaneMotion) (s : List Elec) (h : sameLayout (s.map M.elec) s) (c : ℝ) (p : V3) (hp : offSystem s p) :
    (∀ typ, electricalAt s typ [] (M.on3 p) = electricalAt s typ [] p) ∧
      totalAt ⟨s, some c⟩ [] (M.on3 p) = totalAt ⟨s, some c⟩ [] p := by
  refine ⟨fun typ => ?_, ?_⟩
  · rw [c126_symmetric M s h typ [] (by simp) p hp, contractRec_eq]; rfl
  · rw [c126_symmetric_total M s h c [] (by simp) p hp, contractRec_eq]; rfl

section fixed
variable (M : PlaneMotion) (T : Idx → ℝ)

theorem fixed_grad (h : ∀ l : Idx, l.length ≤ 2 → T l = contractRec M.matrix.transpose T l) :
    T [0] = M.c * T [0] - M.s * M.sign * T [1] ∧ T [1] = M.s * T [0] + M.c * M.sign * T [1] := by
  have h0 := h [0] (by simp)
  have h1 := h [1] (by simp)
  simp only [contractRec, Matrix.transpose_apply, Fin.sum_univ_three] at h0 h1
  simp [PlaneMotion.matrix] at h0 h1
  constructor <;> linarith

theorem fixed_normal (h : ∀ l : Idx, l.length ≤ 2 → T l = contractRec M.matrix.transpose T l) (n : Fin 3 → ℝ)
    (hn : ∀ j, ∑ k, M.matrix j k * n k = -n j) : ∑ j, n j * T [j] = 0 := by
  obtain ⟨h0, h1⟩ := fixed_grad M T h
  have n0 := hn 0
  have n1 := hn 1
  have n2 := hn 2
  have u1 := M.unit
  have u2 := M.sign_mul
  simp only [Fin.sum_univ_three] at n0 n1 n2 ⊢
  simp [PlaneMotion.matrix] at n0 n1 n2
  have n2' : n 2 = 0 := by linarith
  rw [n2']
  have e0 : n 0 = -(M.c * n 0 - M.s * M.sign * n 1) := by linarith
  have e1 : n 1 = -(M.s * n 0 + M.c * M.sign * n 1) := by linarith
  have : n 0 * T [0] + n 1 * T [1] = -(n 0 * T [0] + n 1 * T [1]) := by
    have : n 0 * T [0] + n 1 * T [1] = -(M.c * n 0 - M.s * M.sign * n 1) * (M.c * T [0] - M.s * M.sign * T [1]) +
        -(M.s * n 0 + M.c * M.sign * n 1) * (M.s * T [0] + M.c * M.sign * T [1]) := by rw [← e0, ← e1, ← h0, ← h1]
    refine this.trans ?_
    linear_combination (-(n 0 * T [0]) - M.sign * M.sign * n 1 * T [1]) * u1 - n 1 * T [1] * u2
  linarith

theorem fixed_mixed (h : ∀ l : Idx, l.length ≤ 2 → T l = contractRec M.matrix.transpose T l) (n t : Fin 3 → ℝ)
    (hn : ∀ j, ∑ k, M.matrix j k * n k = -n j) (ht : ∀ j, ∑ k, M.matrix j k * t k = t j) :
    ∑ i, ∑ j, n i * t j * T [i, j] = 0 := by
  have orth : ∀ k k' : Fin 3, ∑ i, M.matrix i k * M.matrix i k' = if k = k' then 1 else 0 := by
    have u1 := M.unit
    have u2 := M.sign_mul
    intro k k'
    fin_cases k <;> fin_cases k' <;> simp [Fin.sum_univ_three, PlaneMotion.matrix]
    · linarith
    · ring
    · ring
    · linear_combination M.sign * M.sign * u1 + u2
  have key : ∑ i, ∑ j, n i * t j * T [i, j] = -∑ i, ∑ j, n i * t j * T [i, j] := by
    have hT : ∀ i j, T [i, j] = ∑ k, ∑ k', M.matrix i k * M.matrix j k' * T [k, k'] := by
      intro i j
      conv_lhs => rw [h [i, j] (by simp)]
      simp only [contractRec, Matrix.transpose_apply, Finset.mul_sum, mul_assoc]
    calc ∑ i, ∑ j, n i * t j * T [i, j]
        = -∑ i, ∑ j, (∑ a, M.matrix i a * n a) * (∑ b, M.matrix j b * t b) * ∑ k, ∑ k', M.matrix i k * M.matrix j k' * T [k, k'] := by
          rw [← Finset.sum_neg_distrib]
          refine Finset.sum_congr rfl fun i _ => ?_
          rw [← Finset.sum_neg_distrib]
          refine Finset.sum_congr rfl fun j _ => ?_
          rw [hn, ht, ← hT]; ring
      _ = -∑ a, ∑ b, ∑ k, ∑ k', n a * t b * T [k, k'] * (∑ i, M.matrix i a * M.matrix i k) * (∑ j, M.matrix j b * M.matrix j k') := by
          simp only [Fin.sum_univ_three]; ring
      _ = _ := by
          simp only [orth]
          simp [Fin.sum_univ_three]
  linarith

theorem fixed_axis (h : ∀ l : Idx, l.length ≤ 2 → T l = contractRec M.matrix.transpose T l) (hm : M.mirror = false) (hc : M.c ≠ 1) :
    T [0] = 0 ∧ T [1] = 0 := by
  obtain ⟨h0, h1⟩ := fixed_grad M T h
  have hs : M.sign = 1 := by simp [PlaneMotion.sign, hm]
  have u := M.unit
  rw [hs] at h0 h1
  have hc' : (1 - M.c) ≠ 0 := sub_ne_zero.2 (Ne.symm hc)
  have e0 : 2 * (1 - M.c) * T [0] = 0 := by linear_combination (1 - M.c) * h0 - M.s * h1 - T [0] * u
  have e1 : 2 * (1 - M.c) * T [1] = 0 := by linear_combination (1 - M.c) * h1 + M.s * h0 - T [1] * u
  constructor
  · simpa [hc'] using e0
  · simpa [hc'] using e1

theorem fixed_axis2 (h : ∀ l : Idx, l.length ≤ 2 → T l = contractRec M.matrix.transpose T l) (hm : M.mirror = false) (hc : M.s ≠ 0)
    (hsym : ∀ i j, T [i, j] = T [j, i]) :
    T [0, 0] = T [1, 1] ∧ T [0, 1] = 0 ∧ T [0, 2] = 0 ∧ T [1, 2] = 0 := by
  have hs : M.sign = 1 := by simp [PlaneMotion.sign, hm]
  have u := M.unit
  have h00 := h [0, 0] (by simp)
  have h01 := h [0, 1] (by simp)
  have h02 := h [0, 2] (by simp)
  have h12 := h [1, 2] (by simp)
  simp only [contractRec, Matrix.transpose_apply, Fin.sum_univ_three] at h00 h01 h02 h12
  simp [PlaneMotion.matrix, hs, hsym 1 0] at h00 h01 h02 h12
  have hc1 : 1 - M.c ≠ 0 := fun e => hc (by
    have : M.c = 1 := by linarith
    rw [this] at u
    simpa using u)
  have e0 : 2 * (1 - M.c) * T [0, 2] = 0 := by linear_combination (1 - M.c) * h02 - M.s * h12 - T [0, 2] * u
  have e1 : 2 * (1 - M.c) * T [1, 2] = 0 := by linear_combination (1 - M.c) * h12 + M.s * h02 - T [1, 2] * u
  have f0 : M.s ^ 2 * (T [0, 0] - T [1, 1]) + 2 * M.c * M.s * T [0, 1] = 0 := by linear_combination h00 + T [0, 0] * u
  have f1 : 2 * M.s ^ 2 * T [0, 1] - M.c * M.s * (T [0, 0] - T [1, 1]) = 0 := by linear_combination h01 + T [0, 1] * u
  have f0' : M.s * (T [0, 0] - T [1, 1]) + 2 * M.c * T [0, 1] = 0 := mul_left_cancel₀ hc (by linear_combination f0)
  have f1' : 2 * M.s * T [0, 1] - M.c * (T [0, 0] - T [1, 1]) = 0 := mul_left_cancel₀ hc (by linear_combination f1)
  have g0 : T [0, 0] - T [1, 1] = 0 := by linear_combination M.s * f0' - M.c * f1' - (T [0, 0] - T [1, 1]) * u
  have g1 : T [0, 1] = 0 := by linear_combination (M.c * f0' + M.s * f1') / 2 - T [0, 1] * u
  refine ⟨by linarith, g1, ?_, ?_⟩
  · simpa [hc1] using e0
  · simpa [hc1] using e1

end fixed

/-- **C126, mirror planes.** At a position that a symmetry of the layout fixes, no force of the static, rf or combined potential acts
along a direction the symmetry reverses. -/
theorem c126_mirror_plane (M : PlaneMotion) (s : List Elec) (h : sameLayout (s.map M.elec) s) (c : ℝ) (p : V3) (hp : offSystem s p)
    (hfix : M.on3 p = p) (n : Fin 3 → ℝ) (hn : ∀ j, ∑ k, M.matrix j k * n k = -n j) :
    (∀ typ, ∑ j, n j * electricalAt s typ [j] p = 0) ∧ ∑ j, n j * totalAt ⟨s, some c⟩ [j] p = 0 := by
  refine ⟨fun typ => fixed_normal M (fun m => electricalAt s typ m p) (fun l hl => ?_) n hn,
    fixed_normal M (fun m => totalAt ⟨s, some c⟩ m p) (fun l hl => ?_) n hn⟩
  · rw [← contractRec_eq, ← c126_symmetric M s h typ l (by omega) p hp, hfix]
  · rw [← contractRec_eq, ← c126_symmetric_total M s h c l (by omega) p hp, hfix]

/-- **C126, mirror planes.** There the direction the symmetry reverses does not mix with the directions it keeps, so it is a principal
axis of the trap. -/
theorem c126_mirror_axes (M : PlaneMotion) (s : List Elec) (h : sameLayout (s.map M.elec) s) (c : ℝ) (p : V3) (hp : offSystem s p)
    (hfix : M.on3 p = p) (n t : Fin 3 → ℝ) (hn : ∀ j, ∑ k, M.matrix j k * n k = -n j) (ht : ∀ j, ∑ k, M.matrix j k * t k = t j) :
    (∀ typ, ∑ i, ∑ j, n i * t j * electricalAt s typ [i, j] p = 0) ∧ ∑ i, ∑ j, n i * t j * totalAt ⟨s, some c⟩ [i, j] p = 0 := by
  refine ⟨fun typ => fixed_mixed M (fun m => electricalAt s typ m p) (fun l hl => ?_) n t hn ht,
    fixed_mixed M (fun m => totalAt ⟨s, some c⟩ m p) (fun l hl => ?_) n t hn ht⟩
  · rw [← contractRec_eq, ← c126_symmetric M s h typ l (by omega) p hp, hfix]
  · rw [← contractRec_eq, ← c126_symmetric_total M s h c l (by omega) p hp, hfix]

/-- **C126, axes.** On the axis of a layout with a rotational symmetry no force acts across the axis. -/
theorem c126_axis (M : PlaneMotion) (s : List Elec) (h : sameLayout (s.map M.elec) s) (c : ℝ) (p : V3) (hp : offSystem s p)
    (hm : M.mirror = false) (hc : M.c ≠ 1) (hfix : M.on3 p = p) :
    (∀ typ, electricalAt s typ [0] p = 0 ∧ electricalAt s typ [1] p = 0) ∧
      totalAt ⟨s, some c⟩ [0] p = 0 ∧ totalAt ⟨s, some c⟩ [1] p = 0 := by
  refine ⟨fun typ => fixed_axis M (fun m => electricalAt s typ m p) (fun l hl => ?_) hm hc,
    fixed_axis M (fun m => totalAt ⟨s, some c⟩ m p) (fun l hl => ?_) hm hc⟩
  · rw [← contractRec_eq, ← c126_symmetric M s h typ l (by omega) p hp, hfix]
  · rw [← contractRec_eq, ← c126_symmetric_total M s h c l (by omega) p hp, hfix]

theorem total_symm2 (s : List Elec) (c : ℝ) (p : V3) (hp : offSystem s p) (i j : Axis) :
    totalAt ⟨s, some c⟩ [i, j] p = totalAt ⟨s, some c⟩ [j, i] p := by
  rw [total_split s c [i, j] (by simp) p fun d typ => avail_of_off hp d typ,
    total_split s c [j, i] (by simp) p fun d typ => avail_of_off hp d typ, sysTens_perm s .dc (List.Perm.swap j i []) p,
    psT_perm2 _ (fun l l' hl => by rw [sysTens_perm s .rf hl]) i j]

/-- **C126, axes.** If the rotation is not a half turn, the two curvatures across the axis agree in all directions, and the axis is a
principal axis. -/
theorem c126_axis_round (M : PlaneMotion) (s : List Elec) (h : sameLayout (s.map M.elec) s) (c : ℝ) (p : V3) (hp : offSystem s p)
    (hm : M.mirror = false) (hs : M.s ≠ 0) (hfix : M.on3 p = p) :
    totalAt ⟨s, some c⟩ [0, 0] p = totalAt ⟨s, some c⟩ [1, 1] p ∧ totalAt ⟨s, some c⟩ [0, 1] p = 0 ∧
      totalAt ⟨s, some c⟩ [0, 2] p = 0 ∧ totalAt ⟨s, some c⟩ [1, 2] p = 0 := by
  refine fixed_axis2 M (fun m => totalAt ⟨s, some c⟩ m p) (fun l hl => ?_) hm hs (total_symm2 s c p hp)
  rw [← contractRec_eq, ← c126_symmetric_total M s h c l (by omega) p hp, hfix]

/-! ### A square electrode around a pixel, with a quarter turn and a mirror image -/

/-- a quarter turn -/
def quarter : PlaneMotion := ⟨0, 1, false, 0, 0, by norm_num⟩

/-- the mirror image `y -> -y` -/
def flipY : PlaneMotion := ⟨1, 0, true, 0, 0, by norm_num⟩

/-- a square rf electrode and a pixel above its centre -/
def squareTrap : List Elec :=
  [⟨"rf", 0, 1, .polygons [[⟨1, 1⟩, ⟨-1, 1⟩, ⟨-1, -1⟩, ⟨1, -1⟩]] 5 2⟩, ⟨"dc", 2, 0, .points [⟨0, 0⟩] [1] 5 2⟩]

theorem squareTrap_quarter : sameLayout (squareTrap.map quarter.elec) squareTrap := by
  refine ⟨_, List.Perm.refl _, ?_⟩
  refine .cons ⟨rfl, rfl, rfl, rfl, _, List.Perm.refl _, .cons ⟨3, ?_⟩ .nil⟩ (.cons ⟨rfl, rfl, rfl, rfl, ?_⟩ .nil)
  · simp [quarter, PlaneMotion.on2, PlaneMotion.sign, List.rotate]
  · simp [quarter, PlaneMotion.on2, PlaneMotion.sign]

theorem squareTrap_flip : sameLayout (squareTrap.map flipY.elec) squareTrap := by
  refine ⟨_, List.Perm.refl _, ?_⟩
  refine .cons ⟨rfl, rfl, rfl, rfl, _, List.Perm.refl _, .cons ⟨0, ?_⟩ .nil⟩ (.cons ⟨rfl, rfl, rfl, rfl, ?_⟩ .nil)
  · simp [flipY, PlaneMotion.on2, PlaneMotion.sign, List.rotate]
  · simp [flipY, PlaneMotion.on2, PlaneMotion.sign]

example : offSystem squareTrap ⟨0, 0, 1⟩ ∧ quarter.on3 ⟨0, 0, 1⟩ = ⟨0, 0, 1⟩ ∧ flipY.on3 ⟨3, 0, 1⟩ = ⟨3, 0, 1⟩ ∧ quarter.s ≠ 0 ∧
    quarter.c ≠ 1 ∧ (∀ j, ∑ k, flipY.matrix j k * ![0, 1, 0] k = -![(0 : ℝ), 1, 0] j) ∧
      ∀ j, ∑ k, flipY.matrix j k * ![2, 0, 1] k = ![(2 : ℝ), 0, 1] j := by
  have hm : ∀ m : ℤ, (1 : ℝ) + 2 * m * 5 ≠ 0 := by
    intro m hm
    have : (1 : ℤ) + 2 * m * 5 = 0 := by exact_mod_cast hm
    omega
  refine ⟨?_, ?_, ?_, ?_, ?_, ?_, ?_⟩
  · intro e he
    simp only [squareTrap, List.mem_cons, List.not_mem_nil, or_false] at he
    rcases he with rfl | rfl
    · intro m h1 h2 h3
      exact hm m h3
    · intro q hq m h1 h2 h3
      exact hm m h3.2.2
  · simp [quarter, PlaneMotion.on3, PlaneMotion.sign]
  · simp [flipY, PlaneMotion.on3, PlaneMotion.sign]
  · simp [quarter]
  · simp [quarter]
  · intro j; fin_cases j <;> simp [Fin.sum_univ_three, flipY, PlaneMotion.matrix, PlaneMotion.sign]
  · intro j; fin_cases j <;> simp [Fin.sum_univ_three, flipY, PlaneMotion.matrix, PlaneMotion.sign]

end Electrode
