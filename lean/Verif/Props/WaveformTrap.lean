import Verif.Props.WaveformModes
import Verif.Props.Oscillation

/-
C148: voltages from `solve` hold an ion where it was asked for.
-/
namespace Electrode

namespace Spec
/-- what is asked for to hold an ion at `x`: no force, and the curvatures `curv` along the columns of `r` -/
noncomputable def trapWants (s : List Elec) (rfs : ℝ) (x : Fin 3 → ℝ) (r : Matrix (Fin 3) (Fin 3) ℝ) (curv : Fin 3 → ℝ) : List Want :=
  curvatureWants s rfs (toV3 x) r curv ++ [0, 1, 2].map fun a => .deriv (toV3 x) [a] (some (-pseudoAt ⟨s, some rfs⟩ [a] (toV3 x))) none none

/-- The ion is held at `x`: the combined potential has a strict minimum there, within a distance `R` this is the only point without force, and an ion in that
distance with less than a certain energy above the minimum has a path for any time, and no path of it leaves the ball. -/
def Holds (s : Sys) (x : Fin 3 → ℝ) : Prop :=
  ∃ R > 0, clearOf s (rball x R) ∧ slopeAt s x = 0 ∧ (∀ y ∈ rball x R, y ≠ x → valueAt s x < valueAt s y ∧ slopeAt s y ≠ 0) ∧
    ∀ κ > 0, ∃ e > 0, ∀ x1 v1, vlen (x1 - x) < R → energyAt s κ x1 v1 - κ * valueAt s x < e → ∀ T,
      (∃ y v, IonPath s κ T y v ∧ y 0 = x1 ∧ v 0 = v1) ∧
        ∀ y v, IonPath s κ T y v → y 0 = x1 → v 0 = v1 → ∀ t ∈ Set.Icc 0 T, y t ∈ rball x R

/-- The ion oscillates along the columns of `r`: its coordinate along column `a` is that of a harmonic oscillator with the angular frequency `√(κ curv a)`, up to an error of
at most a constant times the square of the amplitude `ρ` times the time. -/
def Swings (s : Sys) (x : Fin 3 → ℝ) (r : Matrix (Fin 3) (Fin 3) ℝ) (curv : Fin 3 → ℝ) : Prop :=
  ∀ κ > 0, ∃ r0 > 0, ∃ C, ∀ ρ, 0 < ρ → ρ ≤ r0 → ∀ x1 v1 : Fin 3 → ℝ, vlen (x1 - x) < ρ → energyAt s κ x1 v1 - κ * valueAt s x < κ * (curv 0 / 2) * ρ ^ 2 / 2 → ∀ T,
    (∃ y v, IonPath s κ T y v ∧ y 0 = x1 ∧ v 0 = v1) ∧
    ∀ y v, IonPath s κ T y v → y 0 = x1 → v 0 = v1 → ∀ a, ∀ t ∈ Set.Icc 0 T,
      |coordAlong (fun i => r i a) (y t - x) - swing √(κ * curv a) (coordAlong (fun i => r i a) (x1 - x)) (coordAlong (fun i => r i a) v1) t| ≤ C * ρ ^ 2 * t
end Spec
open Spec Knob Wave Matrix WaveModes Rob

namespace WaveModes

theorem holds_of (els : List Elec) (c : ℝ) (x : Fin 3 → ℝ) (hx : offSystem els (toV3 x)) (hg : slopeAt ⟨els, some c⟩ x = 0) (eigh : Eigh) (heigh : IsEigh eigh)
    (argsort : Argsort) (hsort : IsArgsort argsort) (ew : List ℝ) (ev : List (Fin 3 → ℝ))
    (hm : modes eigh argsort ⟨els, some c⟩ (toV3 x) true = .ok (ew, ev)) (hpos : ∀ w ∈ ew, 0 < w) : Holds ⟨els, some c⟩ x := by
  obtain ⟨R, lam, hR, hl, hc, hs⟩ := c130_near eigh heigh argsort hsort els c x hx ew ev hm hpos
  obtain ⟨h1, h2⟩ := c130_unique els c _ (rball_convex x R) hc lam hl hs x (center_mem x hR) hg
  refine ⟨R, hR, hc, hg, fun y hy hne => ⟨?_, fun h => hne (h2 y hy h)⟩, fun κ hκ => ⟨κ * lam * R ^ 2 / 2, by positivity, fun x1 v1 hx1 hE T => ⟨?_, ?_⟩⟩⟩
  · have h3 := h1 y hy
    have h4 : 0 < vlen (y - x) := lt_of_le_of_ne (vlen_nonneg _) fun h => hne (sub_eq_zero.1 ((vlen_zero_iff _).1 h.symm))
    have : 0 < lam / 2 * vlen (y - x) ^ 2 := by positivity
    linarith
  · obtain ⟨y, v, k1, k2, k3, -⟩ := c131_well els c κ hκ x R hR hc lam hl hs hg x1 v1 hx1 hE T
    exact ⟨y, v, k1, k2, k3⟩
  · intro y v hp e1 e2 t ht
    have h3 := c131_amplitude els c κ T hκ y v hp x R hR hc lam hl hs hg (by rw [e1]; exact hx1) (by rw [e1, e2]; exact hE) t ht
    rw [e1, e2] at h3
    have h4 : 2 * (energyAt ⟨els, some c⟩ κ x1 v1 - κ * valueAt ⟨els, some c⟩ x) / (κ * lam) ≤ R ^ 2 := by
      rw [div_le_iff₀ (by positivity)]
      nlinarith
    exact (le_abs_self _).trans (abs_le_of_sq_le_sq (h3.trans h4) hR.le)

theorem modes_with (s : List Elec) (v : List ℝ) (rfs : ℝ) (x : V3) (hx : offSystem s x) (eigh : Eigh) (argsort : Argsort) :
    ∃ ew ev, modes eigh argsort ⟨withDc s v, some rfs⟩ x true = .ok (ew, ev) := by
  have hav : ∀ d typ, AvailAll (withDc s v) d typ := fun d typ => avail_of_off (off_withDc s v hx) d typ
  have hp : ∃ r, (⟨withDc s v, some rfs⟩ : Sys).potential [x] 2 .tot = .ok r :=
    (c34_errors _ _ _ _).2 ⟨by decide, ⟨_, electrical_expand_eq _ _ 2 (by norm_num) .dc (hav _ _)⟩,
      _, pseudo_eq _ rfs _ 2 (by norm_num) fun i _ _ => hav i .rf⟩
  obtain ⟨⟨ew, ev⟩, hm⟩ := (c43_fails eigh argsort _ x true).2 hp
  exact ⟨ew, ev, hm⟩

theorem potential_with (s : List Elec) (v : List ℝ) (rfs : ℝ) (x : V3) (hx : offSystem s x) :
    ∃ r, (⟨withDc s v, some rfs⟩ : Sys).potential [x] 2 .tot = .ok r := by
  have hav : ∀ d typ, AvailAll (withDc s v) d typ := fun d typ => avail_of_off (off_withDc s v hx) d typ
  exact (c34_errors _ _ _ _).2 ⟨by decide, ⟨_, electrical_expand_eq _ _ 2 (by norm_num) .dc (hav _ _)⟩,
    _, pseudo_eq _ rfs _ 2 (by norm_num) fun i _ _ => hav i .rf⟩

/-- any eigenvectors that form a frame are returned by some eigenvalue routine that keeps its promises -/
theorem modes_choose (s : Sys) (x : V3) (p : List (List ℝ)) (hp : s.potential [x] 2 .tot = .ok p) (r : Matrix (Fin 3) (Fin 3) ℝ) (hr : rᵀ * r = 1) (curv : Fin 3 → ℝ)
    (hmono : Monotone curv) (hv : ∀ a i, ∑ k, totalAt s [i, k] x * r k a = curv a * r i a) :
    ∃ eigh argsort, IsEigh eigh ∧ IsArgsort argsort ∧
      modes eigh argsort s x true = .ok ([curv 0, curv 1, curv 2], [fun i => r i 0, fun i => r i 1, fun i => r i 2]) := by
  classical
  obtain ⟨eigh, heigh⟩ := exists_isEigh
  obtain ⟨argsort, hsort⟩ := exists_isArgsort
  have h01 : curv 0 ≤ curv 1 := hmono (by decide)
  have h12 : curv 1 ≤ curv 2 := hmono (by decide)
  have hget : ∀ a : Fin 3, ([curv 0, curv 1, curv 2] : List ℝ).getD (a : ℕ) 0 = curv a := fun a => by fin_cases a <;> rfl
  refine ⟨fun N A => if h : ∃ e : N = 3, (e ▸ A : Matrix (Fin 3) (Fin 3) ℝ) = row0Matrix p then ([curv 0, curv 1, curv 2], h.1 ▸ r) else eigh N A,
    fun l => if l = [curv 0, curv 1, curv 2] then [0, 1, 2] else argsort l, fun N A hA => ?_, fun l => ?_, ?_⟩
  · by_cases h : ∃ e : N = 3, (e ▸ A : Matrix (Fin 3) (Fin 3) ℝ) = row0Matrix p
    · beta_reduce
      rw [dif_pos h]
      have h' := h.2
      have h3 := h.1
      subst h3
      have hAe : A = row0Matrix p := h'
      refine ⟨rfl, by simp [h01, h12, h01.trans h12], fun i j => ?_, fun j j' => ?_⟩
      · rw [hget]
        simp only [hAe, row0Matrix_total s x p hp]
        exact hv j i
      · have := congrFun (congrFun hr j) j'
        rw [Matrix.mul_apply, Matrix.one_apply] at this
        exact this
    · beta_reduce
      rw [dif_neg h]
      exact heigh N A hA
  · by_cases h : l = [curv 0, curv 1, curv 2]
    · beta_reduce
      rw [if_pos h, h]
      refine ⟨by simp [List.range_succ], by simp [h01, h12, h01.trans h12]⟩
    · beta_reduce
      rw [if_neg h]
      exact hsort l
  · unfold modes
    rw [hp]
    simp [takeIdx, List.finRange_succ]

end WaveModes

/-- **C148.** If no force and three positive curvatures are asked for at a point of the path, the voltages of this row hold an ion there. -/
theorem c148_holds (s : List Elec) (solver : (Volts s.length → ℝ) → List (Volts s.length → Prop) → Nat → Option (Volts s.length)) (hs : Minimises solver)
    (wants : List (List Want)) (loc : List (List Ctr)) (h : Demands wants loc) (hf : ∀ ws ∈ wants, ∀ w ∈ ws, w.fits s)
    (glob : List VDC) (hg : ∀ c ∈ glob, VDC.plain c) (u : Volts s.length) (c : ℝ) (hsol : solveSets s solver loc glob = .ok (u, c))
    (rfs : ℝ) (k : Nat) (ws : List Want) (hk : wants[k]? = some ws) (x : Fin 3 → ℝ) (hx : offSystem s (toV3 x)) (r : Matrix (Fin 3) (Fin 3) ℝ) (hr : r * rᵀ = 1)
    (curv : Fin 3 → ℝ) (hsum : ∑ a, curv a = ∑ i, pseudoAt ⟨s, some rfs⟩ [i, i] (toV3 x)) (hb : ∀ w ∈ trapWants s rfs x r curv, w ∈ ws) (hmono : Monotone curv)
    (hpos : 0 < curv 0) : Holds ⟨withDc s (rowOf u k), some rfs⟩ x := by
  obtain ⟨eigh, heigh⟩ := exists_isEigh
  obtain ⟨argsort, hsort⟩ := exists_isArgsort
  obtain ⟨ew, ev, hm⟩ := modes_with s (rowOf u k) rfs (toV3 x) hx eigh argsort
  obtain ⟨rfl, -⟩ := c148_modes s solver hs wants loc h hf glob hg u c hsol rfs k ws hk (toV3 x) hx r hr curv hsum
    (fun w hw => hb w (List.mem_append_left _ hw)) hmono eigh heigh argsort hsort ew ev hm
  have hsl := c146_equilibrium s solver hs wants loc h hf glob hg u c hsol rfs k ws hk x hx fun a => hb _ (by
    refine List.mem_append_right _ (List.mem_map.2 ⟨a, ?_, rfl⟩)
    fin_cases a <;> simp)
  refine holds_of _ rfs x (off_withDc s (rowOf u k) hx) hsl eigh heigh argsort hsort _ ev hm fun w hw => ?_
  have h1 : curv 0 ≤ curv 1 := hmono (by decide)
  have h2 : curv 0 ≤ curv 2 := hmono (by decide)
  simp only [List.mem_cons, List.not_mem_nil, or_false] at hw
  rcases hw with rfl | rfl | rfl <;> linarith

/-- **C148.** The ion then oscillates as asked for: along each axis of the frame with the angular frequency that belongs to the curvature asked for. -/
theorem c148_swing (s : List Elec) (solver : (Volts s.length → ℝ) → List (Volts s.length → Prop) → Nat → Option (Volts s.length)) (hs : Minimises solver)
    (wants : List (List Want)) (loc : List (List Ctr)) (h : Demands wants loc) (hf : ∀ ws ∈ wants, ∀ w ∈ ws, w.fits s)
    (glob : List VDC) (hg : ∀ c ∈ glob, VDC.plain c) (u : Volts s.length) (c : ℝ) (hsol : solveSets s solver loc glob = .ok (u, c))
    (rfs : ℝ) (k : Nat) (ws : List Want) (hk : wants[k]? = some ws) (x : Fin 3 → ℝ) (hx : offSystem s (toV3 x)) (r : Matrix (Fin 3) (Fin 3) ℝ) (hr : r * rᵀ = 1)
    (curv : Fin 3 → ℝ) (hsum : ∑ a, curv a = ∑ i, pseudoAt ⟨s, some rfs⟩ [i, i] (toV3 x)) (hb : ∀ w ∈ trapWants s rfs x r curv, w ∈ ws) (hmono : Monotone curv)
    (hpos : 0 < curv 0) : Swings ⟨withDc s (rowOf u k), some rfs⟩ x r curv := by
  intro κ hκ
  have hoff := off_withDc s (rowOf u k) hx
  have hax := c148_axes s solver hs wants loc h hf glob hg u c hsol rfs k ws hk (toV3 x) hx r hr curv hsum fun w hw => hb w (List.mem_append_left _ hw)
  obtain ⟨p, hp⟩ := potential_with s (rowOf u k) rfs (toV3 x) hx
  obtain ⟨eigh, argsort, heigh, hsort, hm⟩ := modes_choose _ _ p hp r (mul_eq_one_comm.1 hr) curv hmono hax
  have hsl := c146_equilibrium s solver hs wants loc h hf glob hg u c hsol rfs k ws hk x hx fun a => hb _ (by
    refine List.mem_append_right _ (List.mem_map.2 ⟨a, ?_, rfl⟩)
    fin_cases a <;> simp)
  have hall : ∀ w ∈ [curv 0, curv 1, curv 2], 0 < w := fun w hw => by
    have h1 : curv 0 ≤ curv 1 := hmono (by decide)
    have h2 : curv 0 ≤ curv 2 := hmono (by decide)
    simp only [List.mem_cons, List.not_mem_nil, or_false] at hw
    rcases hw with rfl | rfl | rfl <;> linarith
  obtain ⟨r0, hr0, C, hC⟩ := c136_small eigh heigh argsort hsort _ rfs x hoff _ _ hm hall hsl κ hκ
  refine ⟨r0, hr0, C, fun ρ h1 h2 x1 v1 h3 h4 T => ?_⟩
  obtain ⟨k1, k2⟩ := hC ρ h1 h2 x1 v1 h3 h4 T
  refine ⟨k1, fun y v hp e1 e2 a t ht => ?_⟩
  have h5 := k2 y v hp e1 e2 a a.2 t ht
  have e3 : ([curv 0, curv 1, curv 2] : List ℝ).getD (a : ℕ) 0 = curv a := by fin_cases a <;> rfl
  have e4 : ([fun i => r i 0, fun i => r i 1, fun i => r i 2] : List (Fin 3 → ℝ)).getD (a : ℕ) 0 = fun i => r i a := by fin_cases a <;> rfl
  rwa [e3, e4] at h5

/-- **C148.** A trap can be asked for again: if along a path `x 0, x 1, ...` off the electrodes there are voltages of at most `M` with which the combined potential has no
force and positive curvatures at each point, then asking at each point for no force, for the curvatures and axes `modes` reports there and for voltages of at
most `M` succeeds, and each row of the returned voltages holds an ion at its point, where it oscillates along these axes with the frequencies of these
curvatures. -/
theorem c148_transport (s : List Elec) (solver : (Volts s.length → ℝ) → List (Volts s.length → Prop) → Nat → Option (Volts s.length)) (hs : Minimises solver)
    (hfind : FindsOptimum solver) (rfs M : ℝ) (eigh : Eigh) (heigh : IsEigh eigh) (argsort : Argsort) (hsort : IsArgsort argsort)
    (path : List ((Fin 3 → ℝ) × (Fin s.length → ℝ) × List ℝ × List (Fin 3 → ℝ)))
    (hp : ∀ q ∈ path, offSystem s (toV3 q.1) ∧ (∀ j, |q.2.1 j| ≤ M) ∧ slopeAt ⟨withDc s (List.ofFn q.2.1), some rfs⟩ q.1 = 0 ∧
      modes eigh argsort ⟨withDc s (List.ofFn q.2.1), some rfs⟩ (toV3 q.1) true = .ok q.2.2 ∧ ∀ w ∈ q.2.2.1, 0 < w) :
    ∃ loc, Demands (path.map fun q => trapWants s rfs q.1 (Matrix.of fun i a => q.2.2.2.getD a 0 i) (fun a => q.2.2.1.getD a 0) ++
        [.volts (some (-M)) (some M) none]) loc ∧
      ∃ u c, solveSets s solver loc [] = .ok (u, c) ∧ u.length = path.length ∧ (∀ row ∈ u, ∀ j, |row j| ≤ M) ∧
        ∀ k q, path[k]? = some q → Holds ⟨withDc s (rowOf u k), some rfs⟩ q.1 ∧
          Swings ⟨withDc s (rowOf u k), some rfs⟩ q.1 (Matrix.of fun i a => q.2.2.2.getD a 0 i) (fun a => q.2.2.1.getD a 0) := by
  set want : ((Fin 3 → ℝ) × (Fin s.length → ℝ) × List ℝ × List (Fin 3 → ℝ)) → List Want := fun q =>
    trapWants s rfs q.1 (Matrix.of fun i a => q.2.2.2.getD a 0 i) (fun a => q.2.2.1.getD a 0) ++ [.volts (some (-M)) (some M) none] with hwant
  have facts : ∀ q ∈ path, ∃ (r : Matrix (Fin 3) (Fin 3) ℝ) (curv : Fin 3 → ℝ), r = (Matrix.of fun (i a : Fin 3) => q.2.2.2.getD a 0 i) ∧ curv = (fun a : Fin 3 => q.2.2.1.getD a 0) ∧
      want q = trapWants s rfs q.1 r curv ++ [.volts (some (-M)) (some M) none] ∧
      r * rᵀ = 1 ∧ Monotone curv ∧ 0 < curv 0 ∧ (∑ a, curv a = ∑ i, pseudoAt ⟨s, some rfs⟩ [i, i] (toV3 q.1)) ∧
      ∀ w ∈ curvatureWants s rfs (toV3 q.1) r curv, w.met s (List.ofFn q.2.1) := by
    rintro ⟨x, v0, ew, ev⟩ hq
    obtain ⟨hx, hM, hsl, hm, hpos⟩ := hp _ hq
    have hlen0 : (List.ofFn v0).length = s.length := by simp
    have hE := ModeShift.eigs heigh hsort hm
    have hr' : (Matrix.of fun i a => ev.getD a 0 i : Matrix (Fin 3) (Fin 3) ℝ)ᵀ * (Matrix.of fun i a => ev.getD a 0 i : Matrix (Fin 3) (Fin 3) ℝ) = 1 := by
      ext a b
      rw [Matrix.mul_apply, Matrix.one_apply]
      exact hE.ortho a b
    have hr := mul_eq_one_comm.1 hr'
    have hfr := vec_frame (fun ks => totalAt ⟨withDc s (List.ofFn v0), some rfs⟩ ks (toV3 x)) _ hr' (fun a => ew.getD a 0) fun a i => hE.vec a i
    have hsum : ∑ a : Fin 3, ew.getD a 0 = ∑ i, pseudoAt ⟨s, some rfs⟩ [i, i] (toV3 x) := by
      rw [← trace_with s (List.ofFn v0) hlen0 rfs (toV3 x) hx, ← frame_sum (fun ks => totalAt ⟨withDc s (List.ofFn v0), some rfs⟩ ks (toV3 x)) _ hr]
      exact Finset.sum_congr rfl fun a _ => by rw [hfr]; simp
    refine ⟨_, fun a => ew.getD a 0, rfl, rfl, rfl, hr, hE.mono, ?_, hsum, (wants_met s (List.ofFn v0) hlen0 rfs (toV3 x) hx _ hr _ hsum).2 hfr⟩
    obtain ⟨hl, -⟩ := c43_modes eigh heigh argsort hsort _ _ ew ev hm
    obtain ⟨p, q, t, rfl⟩ := List.length_eq_three.1 hl
    exact hpos p (by simp)
  have hfits : ∀ ws ∈ path.map want, ∀ w ∈ ws, w.fits s := by
    intro ws h1 w hw
    obtain ⟨q, hq, rfl⟩ := List.mem_map.1 h1
    obtain ⟨r, curv, -, -, e, hr, -⟩ := facts q hq
    have hx := (hp q hq).1
    rw [e, trapWants, List.mem_append, List.mem_append, List.mem_singleton] at hw
    rcases hw with (hw | hw) | rfl
    · unfold curvatureWants at hw
      obtain ⟨q, -, rfl⟩ := List.mem_map.1 hw
      exact ⟨hr, by simp, Knob.off_avail hx _⟩
    · obtain ⟨a, -, rfl⟩ := List.mem_map.1 hw
      exact ⟨by simp, Knob.off_avail hx _⟩
    · intro j hj; cases hj
  obtain ⟨loc, hloc⟩ := demands_exist s (path.map want) hfits
  have hrow : ∀ k q, path[k]? = some q → rowOf (path.map fun q => q.2.1) k = List.ofFn q.2.1 := fun k q hk => by
    unfold rowOf
    rw [List.getD_eq_getElem?_getD, List.getElem?_map, hk]
    rfl
  have hall : AllMet s (path.map want) (path.map fun q => q.2.1) := by
    intro k set hk w hw
    rw [List.getElem?_map, Option.map_eq_some_iff] at hk
    obtain ⟨q, hk, rfl⟩ := hk
    have hq := List.mem_of_getElem? hk
    obtain ⟨r, curv, -, -, e, hr, -, -, -, hmet⟩ := facts q hq
    obtain ⟨hx, hM, hsl, -⟩ := hp q hq
    rw [hrow k q hk]
    rw [e, trapWants, List.mem_append, List.mem_append, List.mem_singleton] at hw
    rcases hw with (hw | hw) | rfl
    · exact hmet w hw
    · obtain ⟨a, -, rfl⟩ := List.mem_map.1 hw
      have h1 : totalAt ⟨withDc s (List.ofFn q.2.1), some rfs⟩ [a] (toV3 q.1) = 0 := congrFun hsl a
      rw [total_with s _ (by simp) rfs _ hx [a] (by simp)] at h1
      refine ⟨fun m hm => ?_, by simp, by simp⟩
      rw [← Option.some.inj hm]
      exact eq_neg_of_add_eq_zero_left h1
    · intro j hj _
      have := abs_le.1 (hM ⟨j, hj⟩)
      rw [List.getD_eq_getElem _ _ (by simpa using hj), List.getElem_ofFn]
      refine ⟨fun m hm => ?_, fun m hm => ?_⟩
      · rw [← Option.some.inj hm]; exact this.1
      · rw [← Option.some.inj hm]; exact this.2
  obtain ⟨u, c, hsol⟩ := c146_succeeds s solver hfind (path.map want) loc hloc hfits [] (by simp)
    (fun ws h1 => by
      obtain ⟨q, -, rfl⟩ := List.mem_map.1 h1
      exact ⟨-M, M, by rw [hwant]; simp⟩) (path.map fun q => q.2.1) (by simp) hall (by simp)
  obtain ⟨k1, k2, -⟩ := c146_met s solver hs (path.map want) loc hloc hfits [] (by simp) u c hsol
  rw [List.length_map] at k1
  refine ⟨loc, hloc, u, c, hsol, k1, fun row hrow' j => ?_, fun k q hk => ?_⟩
  · obtain ⟨k, hk, rfl⟩ := List.getElem_of_mem hrow'
    have hk' : (path.map want)[k]? = some (want (path[k]'(by omega))) := by
      rw [List.getElem?_map, List.getElem?_eq_getElem (by omega)]; rfl
    have h3 := k2 k _ hk' (.volts (some (-M)) (some M) none) (by rw [hwant]; simp) j j.2 trivial
    rw [row_getD u k j j.2, List.getD_eq_getElem _ _ hk] at h3
    exact abs_le.2 ⟨h3.1 _ rfl, h3.2 _ rfl⟩
  · obtain ⟨r, curv, e1, e2, e, hr, hmono, hpos, hsum, -⟩ := facts q (List.mem_of_getElem? hk)
    have hw : ∀ w ∈ trapWants s rfs q.1 r curv, w ∈ want q := fun w hw => by rw [e]; exact List.mem_append_left _ hw
    have hk' : (path.map want)[k]? = some (want q) := by rw [List.getElem?_map, hk]; rfl
    have hx := (hp q (List.mem_of_getElem? hk)).1
    refine ⟨c148_holds s solver hs (path.map want) loc hloc hfits [] (by simp) u c hsol rfs k (want q) hk' q.1 hx r hr curv hsum hw hmono hpos, ?_⟩
    rw [← e1, ← e2]
    exact c148_swing s solver hs (path.map want) loc hloc hfits [] (by simp) u c hsol rfs k (want q) hk' q.1 hx r hr curv hsum hw hmono hpos

/-- The hypotheses are met for the ring trap, twice at the point of the minimum of the pseudopotential: voltages of at most one volt are found that hold an ion there. -/
example : ∃ solver, Minimises solver ∧ FindsOptimum solver ∧ ∃ (loc : List (List Ctr)) (u : Volts Ring.trap.length) (c : ℝ), solveSets Ring.trap solver loc [] = .ok (u, c) ∧
    u.length = 2 ∧ Holds ⟨withDc Ring.trap (rowOf u 0), some 1⟩ ![0, 0, 7] ∧ Holds ⟨withDc Ring.trap (rowOf u 1), some 1⟩ ![0, 0, 7] ∧
    ∃ r curv, (∀ a, 0 < curv a) ∧ Swings ⟨withDc Ring.trap (rowOf u 1), some 1⟩ ![0, 0, 7] r curv := by
  obtain ⟨solver, hs, hfind⟩ := exists_findsOptimum Ring.trap.length
  obtain ⟨eigh, argsort, ew, ev, he, ha, hm, hpos⟩ := Ring.trap_modes 1 one_ne_zero
  have e : toV3 ![0, 0, 7] = ⟨0, 0, 7⟩ := by simp [toV3]
  have e0 : withDc Ring.trap (List.ofFn fun _ : Fin Ring.trap.length => (0 : ℝ)) = Ring.trap := rfl
  obtain ⟨loc, -, u, c, hsol, hl, -, hh⟩ := c148_transport Ring.trap solver hs hfind 1 1 eigh he argsort ha
    [(![0, 0, 7], fun _ => 0, ew, ev), (![0, 0, 7], fun _ => 0, ew, ev)] (by
      intro q hq
      simp only [List.mem_cons, List.not_mem_nil, or_false, or_self] at hq
      subst hq
      exact ⟨by rw [e]; exact Ring.trap_off7, fun _ => by simp, by rw [e0]; exact Ring.trap_slope 1, by rw [e, e0]; exact hm, hpos⟩)
  have h0 := hh 0 (![0, 0, 7], fun _ => 0, ew, ev) (by simp)
  have h1 := hh 1 (![0, 0, 7], fun _ => 0, ew, ev) (by simp)
  have hl3 := (c43_modes eigh he argsort ha _ _ ew ev hm).1
  exact ⟨solver, hs, hfind, loc, u, c, hsol, hl, h0.1, h1.1, _, _, fun a => hpos _ (by
    rw [List.getD_eq_getElem _ _ (by rw [hl3]; exact a.2)]
    exact List.getElem_mem _), h1.2⟩

end Electrode
