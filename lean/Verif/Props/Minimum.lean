import Verif.Lemmas.SysSmooth
import Verif.Props.Tensor
import Mathlib.Analysis.Calculus.Deriv.Prod

/-
C35 and C72: the functions handed to the minimiser and to the saddle point search.
-/
namespace Electrode
open Spec

namespace Spec
/-- `x` with the entries of `axis` replaced by those of `xi` -/
def placed (x : Fin 3 → ℝ) (axis : List (Fin 3)) (xi : List ℝ) : Fin 3 → ℝ :=
  fun a => if a ∈ axis then xi.getD (axis.idxOf a) 0 else x a

/-- the position with coordinates `y` in the coordinate system `coord` -/
def position (coord : Matrix (Fin 3) (Fin 3) ℝ) (y : Fin 3 → ℝ) : V3 :=
  ⟨∑ k, coord 0 k * y k, ∑ k, coord 1 k * y k, ∑ k, coord 2 k * y k⟩

/-- value of a call, 0 if it fails -/
def val (r : Py ℝ) : ℝ := match r with | .ok v => v | .error _ => 0
/-- entry `i` of the result of a call, 0 if it fails -/
def val1 (r : Py (List ℝ)) (i : Nat) : ℝ := match r with | .ok v => v.getD i 0 | .error _ => 0
/-- entry `[i, j]` of the result of a call, 0 if it fails -/
def val2 (r : Py (List (List ℝ))) (i j : Nat) : ℝ := match r with | .ok v => (v.getD i []).getD j 0 | .error _ => 0
end Spec

theorem coordPos_eq (coord : Matrix (Fin 3) (Fin 3) ℝ) (y : Fin 3 → ℝ) : coordPos coord y = position coord y := rfl

theorem coordPos_toV (coord : Matrix (Fin 3) (Fin 3) ℝ) (y : Fin 3 → ℝ) : coordPos coord y = toV (coord.mulVec y) := rfl

theorem setAxes_notin (dt : Dtype) (x : Fin 3 → ℝ) (axis : List (Fin 3)) (xi : List ℝ) (a : Fin 3) (ha : a ∉ axis) :
    setAxes dt x axis xi a = x a := by
  unfold setAxes
  induction axis generalizing x xi with
  | nil => simp
  | cons b axis ih =>
    cases xi with
    | nil => simp
    | cons v xi =>
      simp only [List.mem_cons, not_or] at ha
      simp only [List.zip_cons_cons, List.foldl_cons]
      rw [ih _ _ ha.2, Function.update_of_ne ha.1]

theorem setAxes_float (x : Fin 3 → ℝ) (axis : List (Fin 3)) (hn : axis.Nodup) (xi : List ℝ) (hx : xi.length = axis.length) :
    setAxes .float x axis xi = placed x axis xi := by
  induction axis generalizing x xi with
  | nil => funext a; simp [setAxes, placed]
  | cons b axis ih =>
    cases xi with
    | nil => simp at hx
    | cons v xi =>
      have hn' := List.nodup_cons.1 hn
      have h1 : setAxes .float x (b :: axis) (v :: xi) = setAxes .float (Function.update x b v) axis xi := rfl
      rw [h1]
      funext a
      by_cases hab : a = b
      · subst hab
        rw [setAxes_notin _ _ _ _ _ hn'.1]
        simp [placed]
      · rw [ih _ hn'.2 xi (by simpa using hx)]
        unfold placed
        by_cases ha : a ∈ axis
        · have : List.idxOf a (b :: axis) = List.idxOf a axis + 1 := by
            rw [List.idxOf_cons_ne _ (Ne.symm hab)]
          simp [ha, hab, this]
        · simp [ha, hab]

theorem placed_set (x : Fin 3 → ℝ) (axis : List (Fin 3)) (hn : axis.Nodup) (xi : List ℝ) (hx : xi.length = axis.length)
    (j : Nat) (hj : j < axis.length) (t : ℝ) : placed x axis (xi.set j t) = Function.update (placed x axis xi) axis[j] t := by
  funext a
  unfold placed
  by_cases hab : a = axis[j]
  · subst hab
    have : List.idxOf axis[j] axis = j := hn.idxOf_getElem j hj
    simp [this, hx, hj]
  · rw [Function.update_of_ne hab]
    by_cases ha : a ∈ axis
    · have : j ≠ List.idxOf a axis := by
        intro e
        apply hab
        subst e
        exact (List.getElem_idxOf hj).symm
      simp [ha, this]
    · simp [ha]

/-- value of `rotate_tensor(self.potential(...), r)` -/
theorem rotated_eq (els : List Elec) (c : ℝ) (coord r : Matrix (Fin 3) (Fin 3) ℝ) (d : Nat) (h1 : 1 ≤ d) (h4 : d ≤ 4)
    (y : Fin 3 → ℝ) (hoff : offSystem els (coordPos coord y)) :
    ∃ t, rotatedPotential ⟨els, some c⟩ coord r d y = .ok t ∧ ∀ l : Idx, l.length = d →
      t l = contractRec r (fun l => totalAt ⟨els, some c⟩ l (coordPos coord y)) l := by
  have ha := fun d typ => avail_of_off hoff d typ
  have e1 := electrical_expand_eq els [coordPos coord y] d (by omega) .dc (ha _ _)
  have e2 := pseudo_eq els c [coordPos coord y] d h4 fun i _ _ => ha i .rf
  obtain ⟨⟨rr, hr, _, _⟩, _⟩ := c34_potential ⟨els, some c⟩ [coordPos coord y] d _ _ e1 e2
  unfold rotatedPotential
  rw [hr]
  refine ⟨_, rfl, ?_⟩
  intro l hl
  rw [c08_rotate_contraction d h1 _ _ l hl, contractRec_eq]
  apply contractRec_congr
  intro ks hks
  unfold totalAt
  rw [hks, hl, hr]
  simp only [entryOf, toNArr, entry]
  rw [idxToNidx_eq]

theorem contractRec_1 (r : Matrix (Fin 3) (Fin 3) ℝ) (T : Idx → ℝ) (a : Axis) :
    contractRec r T [a] = ∑ k, r k a * T [k] := rfl

theorem contractRec_2 (r : Matrix (Fin 3) (Fin 3) ℝ) (T : Idx → ℝ) (a b : Axis) :
    contractRec r T [a, b] = ∑ k, r k a * ∑ m, r m b * T [k, m] := rfl

/-- the line along coordinate `a` -/
theorem line_coord (coord : Matrix (Fin 3) (Fin 3) ℝ) (y : Fin 3 → ℝ) (a : Axis) :
    HasDerivAt (fun t => coord.mulVec (Function.update y a t)) (fun k => coord k a) (y a) := by
  rw [hasDerivAt_pi]
  intro k
  have h : ∀ t, coord.mulVec (Function.update y a t) k = coord.mulVec y k + coord k a * (t - y a) := by
    intro t
    simp only [Matrix.mulVec, dotProduct, Fin.sum_univ_three]
    obtain rfl | rfl | rfl := EdgeId.axis_cases a <;> simp [Function.update] <;> ring
  simp only [h]
  simpa using (((hasDerivAt_id (y a)).sub_const (y a)).const_mul (coord k a)).const_add (coord.mulVec y k)

theorem optF_eq (els : List Elec) (c : ℝ) (coord : Matrix (Fin 3) (Fin 3) ℝ) (dt : Dtype) (x : Fin 3 → ℝ) (axis : List Axis)
    (xi : List ℝ) (hoff : offSystem els (coordPos coord (setAxes dt x axis xi))) :
    optF ⟨els, some c⟩ coord dt x axis xi = .ok (totalAt ⟨els, some c⟩ [] (coordPos coord (setAxes dt x axis xi))) := by
  have ha := fun d typ => avail_of_off hoff d typ
  have e1 := electrical_expand_eq els [coordPos coord (setAxes dt x axis xi)] 0 (by omega) .dc (ha _ _)
  have e2 := pseudo_eq els c [coordPos coord (setAxes dt x axis xi)] 0 (by omega) fun i _ _ => ha i .rf
  obtain ⟨⟨rr, hr, _, _⟩, _⟩ := c34_potential ⟨els, some c⟩ [coordPos coord (setAxes dt x axis xi)] 0 _ _ e1 e2
  unfold optF totalAt
  rw [List.length_nil, hr]
  rfl

/-- failing calls have value 0 in `val` and `totalAt` -/
theorem val_optF (s : Sys) (coord : Matrix (Fin 3) (Fin 3) ℝ) (dt : Dtype) (x : Fin 3 → ℝ) (axis : List Axis)
    (xi : List ℝ) : val (optF s coord dt x axis xi) = totalAt s [] (coordPos coord (setAxes dt x axis xi)) := by
  unfold optF totalAt
  rw [List.length_nil]
  cases s.potential [coordPos coord (setAxes dt x axis xi)] 0 .tot <;> rfl

/-- C35: the function `minimum` minimises is the combined potential at the position with the
coordinates `xi` for `axis` and those of the start for the other axes. -/
theorem c35_minimum_function (els : List Elec) (c : ℝ) (coord : Matrix (Fin 3) (Fin 3) ℝ) (x : Fin 3 → ℝ)
    (axis : List Axis) (hn : axis.Nodup) (xi : List ℝ) (hx : xi.length = axis.length)
    (hoff : offSystem els (position coord (placed x axis xi))) :
    minimumF ⟨els, some c⟩ coord .float x axis xi
      = .ok (totalAt ⟨els, some c⟩ [] (position coord (placed x axis xi))) := by
  have h := setAxes_float x axis hn xi hx
  have := optF_eq els c coord .float x axis xi (by rw [h, coordPos_eq]; exact hoff)
  rw [h] at this
  exact this

/-- C35: the gradient handed to the minimiser consists of the partial derivatives of the function handed
to it, for every coordinate system, every choice of distinct axes and every position off the
electrodes. -/
theorem c35_minimum_gradient (els : List Elec) (c : ℝ) (coord : Matrix (Fin 3) (Fin 3) ℝ) (x : Fin 3 → ℝ)
    (axis : List Axis) (hn : axis.Nodup) (xi : List ℝ) (hx : xi.length = axis.length)
    (hoff : offSystem els (position coord (placed x axis xi))) :
    ∃ g, minimumG ⟨els, some c⟩ coord .float x axis xi = .ok g ∧ g.length = axis.length ∧
      ∀ j < axis.length, HasDerivAt (fun t => val (minimumF ⟨els, some c⟩ coord .float x axis (xi.set j t)))
        (g.getD j 0) (xi.getD j 0) := by
  have hs := setAxes_float x axis hn xi hx
  have hoff' : offSystem els (coordPos coord (setAxes .float x axis xi)) := by rw [hs, coordPos_eq]; exact hoff
  obtain ⟨t, ht, hv⟩ := rotated_eq els c coord coord 1 le_rfl (by norm_num) _ hoff'
  refine ⟨axis.map fun a => t [a], ?_, by simp, ?_⟩
  · unfold minimumG optG
    rw [ht]
  · intro j hj
    have h1 : (axis.map fun a => t [a]).getD j 0 = t [axis[j]] := by simp [hj]
    rw [h1, hv _ rfl, contractRec_1]
    have h2 : xi.getD j 0 = placed x axis xi axis[j] := by
      have : List.idxOf axis[j] axis = j := hn.idxOf_getElem j hj
      simp [placed, this]
    unfold minimumF
    simp only [val_optF]
    have h3 : ∀ t, coordPos coord (setAxes .float x axis (xi.set j t))
        = toV (coord.mulVec (Function.update (placed x axis xi) axis[j] t)) := by
      intro t
      rw [setAxes_float x axis hn _ (by simpa using hx), placed_set x axis hn xi hx j hj t]
      rfl
    simp only [h3, h2]
    rw [hs]
    refine line_deriv (total_smooth els c [] (by simp)) (fun a => totalAt ⟨els, some c⟩ [a] (coordPos coord (placed x axis xi)))
      (coord.mulVec (placed x axis xi)) hoff ?_ _ _ _ (line_coord coord (placed x axis xi) axis[j]) ?_
    · intro a
      exact total_step els c [] a (by simp) _ hoff
    · simp

/-- C35: the Hessian handed to the minimiser consists of the partial derivatives of the gradient. -/
theorem c35_minimum_hessian (els : List Elec) (c : ℝ) (coord : Matrix (Fin 3) (Fin 3) ℝ) (x : Fin 3 → ℝ)
    (axis : List Axis) (hn : axis.Nodup) (xi : List ℝ) (hx : xi.length = axis.length)
    (hoff : offSystem els (position coord (placed x axis xi))) :
    ∃ h, minimumH ⟨els, some c⟩ coord .float x axis xi = .ok h ∧ hasShape h axis.length axis.length ∧
      ∀ i < axis.length, ∀ j < axis.length,
        HasDerivAt (fun t => val1 (minimumG ⟨els, some c⟩ coord .float x axis (xi.set j t)) i)
          (at2 h i j) (xi.getD j 0) := by
  have hs := setAxes_float x axis hn xi hx
  have hoff' : offSystem els (coordPos coord (setAxes .float x axis xi)) := by rw [hs, coordPos_eq]; exact hoff
  obtain ⟨t, ht, hv⟩ := rotated_eq els c coord coord 2 (by norm_num) (by norm_num) _ hoff'
  refine ⟨axis.map fun a => axis.map fun b => t [a, b], ?_, ⟨by simp, by simp⟩, ?_⟩
  · unfold minimumH optH
    rw [ht]
  · intro i hi j hj
    have h1 : at2 (axis.map fun a => axis.map fun b => t [a, b]) i j = t [axis[i], axis[j]] := by
      simp [at2, hi, hj]
    rw [h1, hv _ rfl, contractRec_2]
    have h2 : xi.getD j 0 = placed x axis xi axis[j] := by
      have : List.idxOf axis[j] axis = j := hn.idxOf_getElem j hj
      simp [placed, this]
    have h3 : ∀ t, coordPos coord (setAxes .float x axis (xi.set j t))
        = toV (coord.mulVec (Function.update (placed x axis xi) axis[j] t)) := by
      intro t
      rw [setAxes_float x axis hn _ (by simpa using hx), placed_set x axis hn xi hx j hj t]
      rfl
    have hev : ∀ᶠ t in nhds (placed x axis xi axis[j]), val1 (minimumG ⟨els, some c⟩ coord .float x axis (xi.set j t)) i
        = ∑ k, coord k axis[i] * totalAt ⟨els, some c⟩ [k] (toV (coord.mulVec (Function.update (placed x axis xi) axis[j] t))) := by
      have hc : ContinuousAt (fun t => coord.mulVec (Function.update (placed x axis xi) axis[j] t)) (placed x axis xi axis[j]) :=
        (line_coord coord (placed x axis xi) axis[j]).continuousAt
      have hm : (fun t => coord.mulVec (Function.update (placed x axis xi) axis[j] t)) (placed x axis xi axis[j])
          ∈ {w | offSystem els (toV w)} := by
        simp only [Function.update_eq_self]; exact hoff
      filter_upwards [hc.preimage_mem_nhds ((offSystem_open els).mem_nhds hm)] with t' ht'
      have ht'' : offSystem els (coordPos coord (setAxes .float x axis (xi.set j t'))) := by
        rw [h3]; exact ht'
      obtain ⟨u, hu, hw⟩ := rotated_eq els c coord coord 1 le_rfl (by norm_num) _ ht''
      unfold minimumG optG
      rw [hu]
      have : val1 (.ok (axis.map fun a => u [a])) i = u [axis[i]] := by simp [val1, hi]
      rw [this, hw _ rfl, contractRec_1, h3]
    rw [h2]
    refine HasDerivAt.congr_of_eventuallyEq ?_ hev
    rw [hs]
    have key : ∀ k, HasDerivAt (fun t => totalAt ⟨els, some c⟩ [k] (toV (coord.mulVec (Function.update (placed x axis xi) axis[j] t))))
        (∑ m, coord m axis[j] * totalAt ⟨els, some c⟩ [k, m] (coordPos coord (placed x axis xi))) (placed x axis xi axis[j]) := by
      intro k
      refine line_deriv (total_smooth els c [k] (by simp)) (fun a => totalAt ⟨els, some c⟩ [k, a] (coordPos coord (placed x axis xi)))
        (coord.mulVec (placed x axis xi)) hoff ?_ _ _ _ (line_coord coord (placed x axis xi) axis[j]) ?_
      · intro a
        exact total_step els c [k] a (by simp) _ hoff
      · simp
    exact HasDerivAt.fun_sum fun k _ => (key k).const_mul (coord k axis[i])

/-- C35: `minimum` returns the start with the coordinates of `axis` replaced by what the minimiser
found. -/
theorem c35_minimum_returns (minimize) (s : Sys) (coord : Matrix (Fin 3) (Fin 3) ℝ) (x : Fin 3 → ℝ)
    (axis : List Axis) (hn : axis.Nodup) (r : List ℝ) (hr : r.length = axis.length) (b : Bool)
    (h : minimize (minimumF s coord .float x axis) (minimumG s coord .float x axis) (minimumH s coord .float x axis)
      (axis.map x) = .ok (b, r)) :
    minimum minimize s coord .float x axis = if b then .ok (placed x axis r) else .error .valueError := by
  unfold minimum
  rw [h]
  cases b
  · rfl
  · rw [if_pos rfl]
    exact congrArg _ (setAxes_float x axis hn r hr)

/-- two of three axes in a rotated coordinate system, at a position off a polygon electrode -/
example : offSystem [⟨"p", 0, 1, .polygons [[⟨1, 1⟩, ⟨-1, 1⟩, ⟨-1, -1⟩, ⟨1, -1⟩]] 50 0⟩]
    (position !![1, 0, 0; 0, 0, -1; 0, 1, 0] (placed ![0, 0, 0] [1, 2] [3, 4])) := by
  intro e he
  simp at he
  subst he
  intro m h1 h2 h3
  have : m = 0 := by omega
  subst this
  simp [position, placed, Fin.sum_univ_three] at h3

/-- a cover electrode without rf: potential and field -/
theorem cover_total (p : V3) : totalAt ⟨[⟨"c", 1, 0, .cover 50⟩], some 1⟩ [] p = p.z / 50 ∧
    ∀ a : Axis, totalAt ⟨[⟨"c", 1, 0, .cover 50⟩], some 1⟩ [a] p = if a = 2 then 1 / 50 else 0 := by
  have hoff : offSystem [⟨"c", 1, 0, .cover 50⟩] p := by intro e he; simp at he; subst he; trivial
  have hz : ∀ l, sysTens [⟨"c", 1, 0, .cover 50⟩] .rf l p = 0 := by
    intro l
    rw [sysTens_eq]
    simp [Elec.voltD, Elec.volt]
  have hp : ∀ l, psT (fun l => 1 * sysTens [⟨"c", 1, 0, .cover 50⟩] .rf l p) l = 0 := by
    intro l
    simp only [hz]
    rcases l with _ | ⟨k1, _ | ⟨k2, _ | ⟨k3, _ | ⟨k4, _ | ⟨k5, r⟩⟩⟩⟩⟩ <;> simp [psT]
  constructor
  · rw [total_split _ _ _ (by simp) _ fun d typ => avail_of_off hoff d typ, hp]
    have e0 : entrySel 0 [] = .one 0 := by decide
    simp [sysTens, tens, e0, selVal, sysContrib, Elec.voltD, Elec.volt, Shape.contrib, coverContrib]
  · intro a
    rw [total_split _ _ _ (by simp) _ fun d typ => avail_of_off hoff d typ, hp]
    have h1 : ∀ j : Axis, entrySel 1 [j] = .one j.val := by decide
    obtain rfl | rfl | rfl := EdgeId.axis_cases a <;>
      simp [sysTens, tens, h1, selVal, sysContrib, Elec.voltD, Elec.volt, Shape.contrib, coverContrib]

/-- C35 fails for integer start positions: `np.array(x0)` has an integer type and every position handed
by the minimiser is truncated when it is stored. Here the function has the same value 0 on the whole interval
`[0, 1)`, while the gradient handed along is 1/50. -/
theorem c35_integer_start_truncates (t : ℝ) (h0 : 0 ≤ t) (h1 : t < 1) :
    minimumF ⟨[⟨"c", 1, 0, .cover 50⟩], some 1⟩ 1 .int ![0, 0, 0] [2] [t] = .ok 0 ∧
    minimumG ⟨[⟨"c", 1, 0, .cover 50⟩], some 1⟩ 1 .int ![0, 0, 0] [2] [t] = .ok [1 / 50] := by
  have hoff : ∀ p, offSystem [⟨"c", 1, 0, .cover 50⟩] p := by
    intro p e he; simp at he; subst he; trivial
  have hf : ⌊t⌋ = 0 := Int.floor_eq_iff.2 ⟨by simpa using h0, by simpa using h1⟩
  have hs : setAxes .int ![0, 0, 0] [2] [t] = ![0, 0, 0] := by
    funext a
    obtain rfl | rfl | rfl := EdgeId.axis_cases a <;> simp [setAxes, Dtype.store, h0, hf, Function.update]
  constructor
  · unfold minimumF
    rw [optF_eq _ _ _ _ _ _ _ (hoff _), hs, (cover_total _).1]
    simp [coordPos]
  · unfold minimumG optG
    rw [hs]
    obtain ⟨u, hu, hv⟩ := rotated_eq [⟨"c", 1, 0, .cover 50⟩] 1 1 1 1 le_rfl (by norm_num) ![0, 0, 0] (hoff _)
    rw [hu]
    simp only [List.map_cons, List.map_nil]
    rw [hv _ rfl, contractRec_one, (cover_total _).2]
    simp

theorem setAxes_self (x : Fin 3 → ℝ) (axis : List Axis) : setAxes .float x axis (axis.map x) = x := by
  have key : ∀ y : Fin 3 → ℝ, y = x → setAxes .float y axis (axis.map x) = x := by
    induction axis with
    | nil => intro y hy; simpa [setAxes] using hy
    | cons a axis ih =>
      intro y hy
      have h1 : setAxes .float y (a :: axis) ((a :: axis).map x) = setAxes .float (Function.update y a (x a)) axis (axis.map x) := rfl
      rw [h1]
      apply ih
      rw [hy, Function.update_eq_self]
  exact key x rfl

/-- C72: if the coordinate system is given by a symmetric matrix (as the default, the
identity), function, gradient and starting Hessian are those of `minimum`, so the theorems above hold for
them. -/
theorem c72_saddle_partial (s : Sys) (coord : Matrix (Fin 3) (Fin 3) ℝ) (hc : coord.transpose = coord)
    (dt : Dtype) (x : Fin 3 → ℝ) (axis : List Axis) (xi : List ℝ) :
    saddleF s coord dt x axis xi = minimumF s coord dt x axis xi ∧
    saddleG s coord dt x axis xi = minimumG s coord dt x axis xi ∧
    saddleH s coord x axis = minimumH s coord .float x axis (axis.map x) := by
  refine ⟨rfl, ?_, ?_⟩
  · unfold saddleG minimumG
    rw [hc]
  · unfold saddleH minimumH optH
    rw [hc, setAxes_self]

/-- C72 fails in other coordinate systems: `saddle` rotates the tensors with the
transposed matrix. For the cover electrode and a quarter turn about x the function grows along the second
coordinate, while the gradient handed along says that it falls. -/
theorem c72_saddle_gradient_wrong :
    ∃ (els : List Elec) (coord : Matrix (Fin 3) (Fin 3) ℝ), coord * coord.transpose = 1 ∧
      HasDerivAt (fun t => val (saddleF ⟨els, some 1⟩ coord .float ![0, 0, 0] [1] [t])) (1 / 50) 0 ∧
      saddleG ⟨els, some 1⟩ coord .float ![0, 0, 0] [1] [0] = .ok [-(1 / 50)] := by
  refine ⟨[⟨"c", 1, 0, .cover 50⟩], !![1, 0, 0; 0, 0, -1; 0, 1, 0], ?_, ?_, ?_⟩
  · ext i j
    obtain rfl | rfl | rfl := EdgeId.axis_cases i <;> obtain rfl | rfl | rfl := EdgeId.axis_cases j <;>
      simp [Matrix.mul_apply, Fin.sum_univ_three]
  · have key : ∀ t : ℝ, val (saddleF ⟨[⟨"c", 1, 0, .cover 50⟩], some 1⟩ !![1, 0, 0; 0, 0, -1; 0, 1, 0] .float ![0, 0, 0] [1] [t])
        = t / 50 := by
      intro t
      unfold saddleF
      rw [val_optF, (cover_total _).1]
      simp [coordPos, setAxes, Dtype.store, Matrix.mulVec, dotProduct, Fin.sum_univ_three, Function.update]
    simp only [key]
    exact (hasDerivAt_id (0 : ℝ)).div_const 50
  · unfold saddleG optG
    obtain ⟨u, hu, hv⟩ := rotated_eq [⟨"c", 1, 0, .cover 50⟩] 1 !![1, 0, 0; 0, 0, -1; 0, 1, 0]
      (Matrix.transpose !![1, 0, 0; 0, 0, -1; 0, 1, 0]) 1 le_rfl (by norm_num) (setAxes .float ![0, 0, 0] [1] [0])
      (by intro e he; simp at he; subst he; trivial)
    rw [hu]
    simp only [List.map_cons, List.map_nil]
    rw [hv _ rfl, contractRec_1]
    simp only [(cover_total _).2, Fin.sum_univ_three]
    simp

end Electrode
