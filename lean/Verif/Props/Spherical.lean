import Verif.Model.Spherical
import Verif.Lemmas.Floquet
import Mathlib.Analysis.SpecialFunctions.Trigonometric.Deriv
import Mathlib.Analysis.Real.Pi.Bounds

/-
C54: the index map of spherical harmonics; C56: coordinates; C57: derivatives.
-/
namespace Electrode

/-! ### C54 -/

theorem mem_sphIndices {nmax : Nat} {e : Nat × Int × Int × Int} : e ∈ sphIndices nmax ↔
    e.1 < nmax ∧ |e.2.1| ≤ e.1 ∧
      e.2.2 = (if 0 ≤ e.2.1 then (e.2.1, (e.1 : Int)) else ((nmax : Int) + e.2.1, (nmax : Int) - 1 - e.1)) := by
  obtain ⟨n, m, p, q⟩ := e
  unfold sphIndices
  simp only [List.mem_flatMap, List.mem_range, List.mem_append, List.mem_map, Prod.mk.injEq]
  constructor
  · rintro ⟨n', hn, ⟨k, hk, rfl, rfl, rfl, rfl⟩ | ⟨k, hk, rfl, rfl, rfl, rfl⟩⟩
    · refine ⟨hn, abs_le.2 (by omega), ?_⟩
      rw [if_neg (by omega)]
      refine Prod.ext ?_ ?_ <;> simp only <;> omega
    · refine ⟨hn, abs_le.2 (by omega), ?_⟩
      rw [if_pos (by omega)]
  · rintro ⟨hn, hm, he⟩
    have := abs_le.1 hm
    refine ⟨n, hn, ?_⟩
    split at he
    · obtain ⟨rfl, rfl⟩ := Prod.mk.inj he
      exact Or.inr ⟨p.toNat, by omega, by omega⟩
    · obtain ⟨h1, h2⟩ := Prod.mk.inj he
      exact Or.inl ⟨(m + n).toNat, by omega, by omega⟩

/-- C54: `indices` yields exactly the `(n, m)` with `0 ≤ n < nmax`, `|m| ≤ n`, each at its documented place -/
theorem c54_members (nmax n : Nat) (m p q : Int) : (n, m, p, q) ∈ sphIndices nmax ↔
    n < nmax ∧ |m| ≤ n ∧ ((0 ≤ m ∧ p = m ∧ q = n) ∨ (m < 0 ∧ p = nmax + m ∧ q = nmax - 1 - n)) := by
  rw [mem_sphIndices]
  simp only
  refine and_congr_right fun _ => and_congr_right fun _ => ?_
  split
  · rw [Prod.mk.injEq]; omega
  · rw [Prod.mk.injEq]; omega

/-- C54: each `(n, m)` once -/
theorem c54_nodup (nmax : Nat) : ((sphIndices nmax).map fun e => (e.1, e.2.1)).Nodup := by
  unfold sphIndices
  rw [List.map_flatMap, List.nodup_flatMap]
  constructor
  · intro n _
    rw [List.map_append, List.map_map, List.map_map]
    refine List.Nodup.append ?_ ?_ ?_
    · refine List.Nodup.map_on (fun a _ b _ h => ?_) List.nodup_range
      simp only [Function.comp, Prod.mk.injEq] at h
      omega
    · refine List.Nodup.map_on (fun a _ b _ h => ?_) List.nodup_range
      simp only [Function.comp, Prod.mk.injEq] at h
      omega
    · intro x h1 h2
      obtain ⟨a, ha, rfl⟩ := List.mem_map.1 h1
      obtain ⟨b, hb, h⟩ := List.mem_map.1 h2
      have := List.mem_range.1 ha
      simp only [Function.comp, Prod.mk.injEq] at h
      omega
  · refine List.Pairwise.imp ?_ List.nodup_range
    intro a b hab x h1 h2
    simp only [List.map_append, List.map_map, List.mem_append, List.mem_map, Function.comp] at h1 h2
    have ha : x.1 = a := by rcases h1 with ⟨k, _, rfl⟩ | ⟨k, _, rfl⟩ <;> rfl
    have hb : x.1 = b := by rcases h2 with ⟨k, _, rfl⟩ | ⟨k, _, rfl⟩ <;> rfl
    exact hab (ha.symm.trans hb)

theorem sphIndices_inj {nmax : Nat} {e f : Nat × Int × Int × Int} (he : e ∈ sphIndices nmax) (hf : f ∈ sphIndices nmax)
    (h : e.2.2 = f.2.2) : e = f := by
  obtain ⟨n, m, p, q⟩ := e
  obtain ⟨n', m', p', q'⟩ := f
  obtain ⟨h1, h2, h3⟩ := (c54_members nmax n m p q).1 he
  obtain ⟨h1', h2', h3'⟩ := (c54_members nmax n' m' p' q').1 hf
  obtain ⟨rfl, rfl⟩ := Prod.mk.inj h
  have := abs_le.1 h2
  have := abs_le.1 h2'
  simp only [Prod.mk.injEq, and_true]
  omega

/-- C54: the places are the entries of an `nmax` by `nmax` array, each once -/
theorem c54_places (nmax : Nat) : ((sphIndices nmax).map fun e => e.2.2).Nodup ∧
    ∀ p q : Int, (p, q) ∈ (sphIndices nmax).map (fun e => e.2.2) ↔ (0 ≤ p ∧ p < nmax) ∧ 0 ≤ q ∧ q < nmax := by
  constructor
  · exact List.Nodup.map_on (fun a ha b hb h => sphIndices_inj ha hb h) (List.Nodup.of_map _ (c54_nodup nmax))
  · intro p q
    rw [List.mem_map]
    constructor
    · rintro ⟨⟨n, m, p', q'⟩, he, h⟩
      obtain ⟨rfl, rfl⟩ := Prod.mk.inj h
      obtain ⟨h1, h2, h3⟩ := (c54_members nmax n m p' q').1 he
      have := abs_le.1 h2
      omega
    · rintro ⟨hp, hq⟩
      by_cases h : p ≤ q
      · exact ⟨(q.toNat, p, p, q), (c54_members _ _ _ _ _).2 ⟨by omega, abs_le.2 (by omega), Or.inl (by omega)⟩, rfl⟩
      · exact ⟨((nmax - 1 - q).toNat, p - nmax, p, q), (c54_members _ _ _ _ _).2
          ⟨by omega, abs_le.2 (by omega), Or.inr (by omega)⟩, rfl⟩

/-- C54: there are `nmax²` of them -/
theorem c54_count (nmax : Nat) : (sphIndices nmax).length = nmax ^ 2 := by
  unfold sphIndices
  rw [List.length_flatMap]
  simp only [List.length_append, List.length_map, List.length_range]
  induction nmax with
  | zero => rfl
  | succ k ih => rw [List.range_succ, List.map_append, List.sum_append, ih]; simp; ring

/-- C54: after the constructor's loop no entry of the tables `n`, `m` is uninitialised -/
theorem c54_table (nmax : Nat) (empty : Int × Int → Nat × Int) {p q : Nat} (hp : p < nmax) (hq : q < nmax) :
    sphTable nmax empty (p, q) = if p ≤ q then (q, (p : Int)) else (nmax - 1 - q, (p : Int) - nmax) := by
  unfold sphTable
  refine applyWrites_val _ _ _ _ (fun w hw hk => ?_) (Or.inl ?_)
  · obtain ⟨⟨n, m, p', q'⟩, he, rfl⟩ := List.mem_map.1 hw
    obtain ⟨h1, h2⟩ := Prod.mk.inj hk
    simp only at h1 h2
    subst h1 h2
    obtain ⟨h1, h2, h3⟩ := (c54_members nmax n m _ _).1 he
    have := abs_le.1 h2
    simp only
    split <;> rw [Prod.mk.injEq] <;> omega
  · have := ((c54_places nmax).2 p q).2 (by omega)
    obtain ⟨e, he, h⟩ := List.mem_map.1 this
    exact ⟨_, List.mem_map.2 ⟨e, he, rfl⟩, h⟩

example : sphIndices 2 = [(0, 0, 0, 0), (1, -1, 1, 0), (1, 0, 0, 1), (1, 1, 1, 1)] := by decide

/-! ### C56 -/

/-- C56: cartesian to spherical and back is the identity everywhere -/
theorem c56_cartesian (x y z : ℝ) :
    let s := cartesianToSpherical x y z
    sphericalToCartesian s.1 s.2.1 s.2.2 = (x, y, z) := by
  have hxy : 0 ≤ x ^ 2 + y ^ 2 := by positivity
  have n1 : ‖(⟨z, √(x ^ 2 + y ^ 2)⟩ : ℂ)‖ = √(x ^ 2 + y ^ 2 + z ^ 2) := by
    rw [Complex.norm_def, Complex.normSq_mk, Real.mul_self_sqrt hxy]; congr 1; ring
  have n2 : ‖(⟨x, y⟩ : ℂ)‖ = √(x ^ 2 + y ^ 2) := by
    rw [Complex.norm_def, Complex.normSq_mk]; congr 1; ring
  have c1 := Complex.norm_mul_cos_arg ⟨z, √(x ^ 2 + y ^ 2)⟩
  have s1 := Complex.norm_mul_sin_arg ⟨z, √(x ^ 2 + y ^ 2)⟩
  have c2 := Complex.norm_mul_cos_arg ⟨x, y⟩
  have s2 := Complex.norm_mul_sin_arg ⟨x, y⟩
  rw [n1] at c1 s1
  rw [n2] at c2 s2
  simp only [sphericalToCartesian, cartesianToSpherical, arctan2, Prod.mk.injEq]
  exact ⟨by rw [s1]; exact c2, by rw [s1]; exact s2, c1⟩

/-- C56: spherical to cartesian and back is the identity for `r > 0`, `0 < theta < pi`, `-pi < phi ≤ pi` -/
theorem c56_spherical {r theta phi : ℝ} (hr : 0 < r) (ht : 0 < theta) (ht' : theta < Real.pi) (hp : -Real.pi < phi)
    (hp' : phi ≤ Real.pi) :
    let c := sphericalToCartesian r theta phi
    cartesianToSpherical c.1 c.2.1 c.2.2 = (r, theta, phi) := by
  have hst := Real.sin_pos_of_pos_of_lt_pi ht ht'
  have hrs : 0 < r * Real.sin theta := mul_pos hr hst
  have hxy : (r * Real.sin theta * Real.cos phi) ^ 2 + (r * Real.sin theta * Real.sin phi) ^ 2 = (r * Real.sin theta) ^ 2 := by
    linear_combination (r * Real.sin theta) ^ 2 * Real.sin_sq_add_cos_sq phi
  simp only [sphericalToCartesian, cartesianToSpherical, arctan2, Prod.mk.injEq]
  rw [hxy, Real.sqrt_sq hrs.le]
  refine ⟨?_, ?_, ?_⟩
  · rw [show (r * Real.sin theta) ^ 2 + (r * Real.cos theta) ^ 2 = r ^ 2 by
      linear_combination r ^ 2 * Real.sin_sq_add_cos_sq theta, Real.sqrt_sq hr.le]
  · have := Complex.arg_mul_cos_add_sin_mul_I hr (θ := theta) ⟨by linarith, ht'.le⟩
    conv_rhs => rw [← this]
    congr 1
    apply Complex.ext <;> simp [← Complex.ofReal_cos, ← Complex.ofReal_sin]
  · have := Complex.arg_mul_cos_add_sin_mul_I hrs (θ := phi) ⟨hp, hp'⟩
    conv_rhs => rw [← this]
    congr 1
    apply Complex.ext <;> simp [← Complex.ofReal_cos, ← Complex.ofReal_sin]

/-- C56: the ranges of the angles -/
theorem c56_range (x y z : ℝ) :
    let s := cartesianToSpherical x y z
    0 ≤ s.1 ∧ 0 ≤ s.2.1 ∧ s.2.1 ≤ Real.pi ∧ -Real.pi < s.2.2 ∧ s.2.2 ≤ Real.pi :=
  ⟨Real.sqrt_nonneg _, Complex.arg_nonneg_iff.2 (Real.sqrt_nonneg _), Complex.arg_le_pi _, Complex.neg_pi_lt_arg _,
    Complex.arg_le_pi _⟩

example : (0 : ℝ) < 2 ∧ 0 < (1 : ℝ) ∧ (1 : ℝ) < Real.pi ∧ -Real.pi < (3 : ℝ) ∧ (3 : ℝ) ≤ Real.pi := by
  have := Real.pi_gt_three
  refine ⟨by norm_num, by norm_num, by linarith, by linarith, by linarith⟩

/-! ### C57 -/

/-- C57: the two directions are inverse of each other off the axis -/
theorem c57_inverse {r theta phi : ℝ} (hr : r ≠ 0) (hs : Real.sin theta ≠ 0) (d : ℝ × ℝ × ℝ) :
    (∃ s, derivativesSphericalCartesian d r theta phi "to_spherical" = .ok s ∧
      derivativesSphericalCartesian s r theta phi "to_cartesian" = .ok d) ∧
    (∃ c, derivativesSphericalCartesian d r theta phi "to_cartesian" = .ok c ∧
      derivativesSphericalCartesian c r theta phi "to_spherical" = .ok d) := by
  obtain ⟨x, y, z⟩ := d
  have h1 := Real.sin_sq_add_cos_sq theta
  have h2 := Real.sin_sq_add_cos_sq phi
  set st := Real.sin theta with hst
  set ct := Real.cos theta with hct
  set sp := Real.sin phi with hsp
  set cp := Real.cos phi with hcp
  have es : ∀ a b c : ℝ, derivativesSphericalCartesian (a, b, c) r theta phi "to_spherical" =
      .ok (cp * st * a + (sp * st * b + ct * c), -sp / (r * st) * a + (cp / (r * st) * b + 0 * c),
        cp * ct / r * a + (sp * ct / r * b + -st / r * c)) := by
    intro a b c
    simp [derivativesSphericalCartesian, sphericalMatrix, hst, hct, hsp, hcp]
  have ec : ∀ a b c : ℝ, derivativesSphericalCartesian (a, b, c) r theta phi "to_cartesian" =
      .ok (cp * st * a + (-r * sp * st * b + r * cp * ct * c), sp * st * a + (r * cp * st * b + r * sp * ct * c),
        ct * a + (0 * b + -r * st * c)) := by
    intro a b c
    simp [derivativesSphericalCartesian, sphericalMatrix, hst, hct, hsp, hcp]
  constructor
  · refine ⟨_, es x y z, ?_⟩
    rw [ec]
    refine congrArg Except.ok (Prod.ext ?_ (Prod.ext ?_ ?_))
    · simp only; field_simp
      linear_combination (cp ^ 2 * x + cp * sp * y) * h1 + x * h2
    · simp only; field_simp
      linear_combination (sp ^ 2 * y + cp * sp * x) * h1 + y * h2
    · simp only; field_simp
      linear_combination r * st * z * h1
  · refine ⟨_, ec x y z, ?_⟩
    rw [es]
    refine congrArg Except.ok (Prod.ext ?_ (Prod.ext ?_ ?_))
    · simp only
      linear_combination (st ^ 2 * x + r * st * ct * z) * h2 + x * h1
    · simp only; field_simp
      linear_combination r * st * y * h2
    · simp only; field_simp
      linear_combination (ct * st * x + r * ct ^ 2 * z) * h2 + r * z * h1

/-- C57, what does hold: along any differentiable path the conversion to spherical components turns the velocity
`(dx, dy, dz)` into the rates `(dr, dphi, dtheta)`, and the conversion to cartesian components does the reverse.  So the
components are those of displacements, and the order is not the documented `(dr, dtheta, dphi)`. -/
theorem c57_rates_partial {r theta phi : ℝ → ℝ} {t dr dtheta dphi : ℝ} (hr : HasDerivAt r dr t)
    (ht : HasDerivAt theta dtheta t) (hp : HasDerivAt phi dphi t) (h0 : r t ≠ 0) (hs : Real.sin (theta t) ≠ 0) :
    ∃ dx dy dz, HasDerivAt (fun u => (sphericalToCartesian (r u) (theta u) (phi u)).1) dx t ∧
      HasDerivAt (fun u => (sphericalToCartesian (r u) (theta u) (phi u)).2.1) dy t ∧
      HasDerivAt (fun u => (sphericalToCartesian (r u) (theta u) (phi u)).2.2) dz t ∧
      derivativesSphericalCartesian (dr, dphi, dtheta) (r t) (theta t) (phi t) "to_cartesian" = .ok (dx, dy, dz) ∧
      derivativesSphericalCartesian (dx, dy, dz) (r t) (theta t) (phi t) "to_spherical" = .ok (dr, dphi, dtheta) := by
  obtain ⟨⟨dx, dy, dz⟩, hc, hsph⟩ := (c57_inverse (phi := phi t) h0 hs (dr, dphi, dtheta)).2
  refine ⟨dx, dy, dz, ?_, ?_, ?_, hc, hsph⟩
  all_goals
    have hc' := hc
    simp [derivativesSphericalCartesian, sphericalMatrix] at hc'
    obtain ⟨rfl, rfl, rfl⟩ := hc'
  · refine ((hr.fun_mul ht.sin).fun_mul hp.cos).congr_deriv ?_
    ring
  · refine ((hr.fun_mul ht.sin).fun_mul hp.sin).congr_deriv ?_
    ring
  · refine (hr.fun_mul ht.cos).congr_deriv ?_
    ring

/-- the documented claim about gradients fails, in every order of the components: for the potential `V = x` at `r = 2`,
`theta = pi/4`, `phi = 0` the derivative of `V` with respect to `theta` is `√2`, and no component of the result is -/
theorem c57_not_gradient : ∃ (V : ℝ → ℝ → ℝ → ℝ) (r theta phi : ℝ) (s : ℝ × ℝ × ℝ),
    derivativesSphericalCartesian
      (deriv (fun x => V x (sphericalToCartesian r theta phi).2.1 (sphericalToCartesian r theta phi).2.2)
          (sphericalToCartesian r theta phi).1,
        deriv (fun y => V (sphericalToCartesian r theta phi).1 y (sphericalToCartesian r theta phi).2.2)
          (sphericalToCartesian r theta phi).2.1,
        deriv (fun z => V (sphericalToCartesian r theta phi).1 (sphericalToCartesian r theta phi).2.1 z)
          (sphericalToCartesian r theta phi).2.2) r theta phi "to_spherical" = .ok s ∧
    ∀ c ∈ [s.1, s.2.1, s.2.2], c ≠ deriv (fun u => V (sphericalToCartesian r u phi).1 (sphericalToCartesian r u phi).2.1
      (sphericalToCartesian r u phi).2.2) theta := by
  refine ⟨fun x _ _ => x, 2, Real.pi / 4, 0, (Real.sin (Real.pi / 4), 0, Real.cos (Real.pi / 4) / 2), ?_, ?_⟩
  · simp [derivativesSphericalCartesian, sphericalMatrix]
  · have hd : deriv (fun u => (sphericalToCartesian 2 u 0).1) (Real.pi / 4) = √2 := by
      have h : HasDerivAt (fun u => (sphericalToCartesian 2 u 0).1) (2 * Real.cos (Real.pi / 4) * Real.cos 0) (Real.pi / 4) := by
        unfold sphericalToCartesian
        exact ((Real.hasDerivAt_sin _).const_mul 2).mul_const _
      rw [h.deriv, Real.cos_zero, Real.cos_pi_div_four]
      ring
    have h2 : (0 : ℝ) < √2 := by positivity
    intro c hc
    rw [hd]
    simp only [List.mem_cons, List.not_mem_nil, or_false, Real.sin_pi_div_four, Real.cos_pi_div_four] at hc
    rcases hc with rfl | rfl | rfl <;> intro h <;> linarith

/-- C57: any other direction raises `UnboundLocalError` -/
theorem c57_direction (d : ℝ × ℝ × ℝ) (r theta phi : ℝ) {direction : String}
    (h : direction ∉ ["to_spherical", "to_cartesian"]) :
    derivativesSphericalCartesian d r theta phi direction = .error .unboundLocalError := by
  simp only [List.mem_cons, List.not_mem_nil, or_false, not_or] at h
  simp [derivativesSphericalCartesian, sphericalMatrix, h.1, h.2]

example : ∃ dx dy dz, derivativesSphericalCartesian (dx, dy, dz) 2 1 3 "to_spherical" = .ok (0, 1, 0) := by
  have hs : Real.sin 1 ≠ 0 := (Real.sin_pos_of_pos_of_lt_pi one_pos (by linarith [Real.pi_gt_three])).ne'
  obtain ⟨⟨dx, dy, dz⟩, -, h⟩ := (c57_inverse (phi := 3) (two_ne_zero) hs (0, 1, 0)).2
  exact ⟨dx, dy, dz, h⟩

end Electrode
