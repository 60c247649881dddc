import Verif.Model.Ions
import Verif.Spec.Ions
import Verif.Lemmas.SysSmooth
import Verif.Props.Minimum

/-
C88: the search for equilibrium positions of several ions.
-/
namespace Electrode
open Real Spec
namespace Ions

/-- `potential` at several positions gives the values at each of them -/
theorem potential_rows (els : List Elec) (c : ℝ) (xs : List V3) (d : Nat) (hd : d ≤ 4)
    (ha : ∀ d typ, AvailAll els d typ) :
    ∃ r, Sys.potential ⟨els, some c⟩ xs d .tot = .ok r ∧ ∀ (k : Nat) (hk : k < xs.length) (l : Idx), l.length = d →
      at2 r k (rowMajor l) = totalAt ⟨els, some c⟩ l xs[k] := by
  have h1 := electrical_expand_eq els xs d (by omega) .dc (ha _ _)
  have h2 := pseudo_eq els c xs d hd fun i _ _ => ha i .rf
  obtain ⟨⟨r, hr, _, hv⟩, _⟩ := c34_potential ⟨els, some c⟩ xs d _ _ h1 h2
  refine ⟨r, hr, fun k hk l hl => ?_⟩
  rw [hv k (rowMajor l), total_split els c l (by omega) _ ha]
  have e1 := entry_flatten d (fun l => sysTens els .dc l xs[k]) l hl
  have e2 := entry_flatten d (psT fun l => c * sysTens els .rf l xs[k]) l hl
  simp only [entry] at e1 e2
  simp only [at2, List.getD_eq_getElem?_getD, List.getElem?_map, List.getElem?_eq_getElem hk, Option.map_some,
    Option.getD_some] at e1 e2 ⊢
  rw [e1, e2]

theorem maSum_of_some (l : List (Option ℝ)) (h : ∃ v, some v ∈ l) : maSum l = some ((l.map fun e => e.getD 0).sum) := by
  unfold maSum
  rw [if_neg]
  obtain ⟨v, hv⟩ := h
  intro hall
  rw [List.all_eq_true] at hall
  simpa using hall _ hv

theorem maSum_some {n : Nat} (f : Fin n → ℝ) (k : Fin n) : maSum (List.ofFn fun i => some (f i)) = some (∑ i, f i) := by
  rw [maSum_of_some _ ⟨f k, List.mem_ofFn.mpr ⟨k, rfl⟩⟩]
  simp [List.map_ofFn, Function.comp_def, List.sum_ofFn]

theorem maSum_pairs {n : Nat} (u v : Fin n → ℝ) (i k : Fin n) (hk : k ≠ i) (h0 : v i = 0) (h : ∀ j, j ≠ i → v j ≠ 0) :
    maSum (List.ofFn fun j => maDiv (u j) (v j)) = some (∑ j, if j = i then 0 else u j / v j) := by
  rw [maSum_of_some _ ⟨u k / v k, List.mem_ofFn.mpr ⟨k, by simp [maDiv, h k hk]⟩⟩]
  rw [List.map_ofFn, List.sum_ofFn]
  congr 1
  refine Finset.sum_congr rfl fun j _ => ?_
  by_cases hj : j = i
  · subst hj; simp [maDiv, h0]
  · simp [maDiv, h j hj, hj]

theorem ionDist_self {n : Nat} (x : Fin n → Fin 3 → ℝ) (i : Fin n) : ionDist x i i = 0 := by simp [ionDist, ionDiff]

theorem ionDist_eq {n : Nat} (x : Fin n → Fin 3 → ℝ) (i j : Fin n) : ionDist x i j = dist3 (x j) (x i) := rfl

theorem dist3_comm (u v : Fin 3 → ℝ) : dist3 u v = dist3 v u := by
  unfold dist3; congr 1; ring

theorem dist3_pos (u v : Fin 3 → ℝ) (h : u ≠ v) : 0 < dist3 u v := by
  unfold dist3
  apply sqrt_pos.mpr
  by_contra hn
  apply h
  have h0 := sq_nonneg (u 0 - v 0)
  have h1 := sq_nonneg (u 1 - v 1)
  have h2 := sq_nonneg (u 2 - v 2)
  funext a
  obtain rfl | rfl | rfl := EdgeId.axis_cases a
  · exact sub_eq_zero.mp ((pow_eq_zero_iff two_ne_zero).mp (by linarith))
  · exact sub_eq_zero.mp ((pow_eq_zero_iff two_ne_zero).mp (by linarith))
  · exact sub_eq_zero.mp ((pow_eq_zero_iff two_ne_zero).mp (by linarith))

theorem half_pairs {n : Nat} (w : Fin n → Fin n → ℝ) (hw : ∀ i j, w i j = w j i) :
    ∑ i, ∑ j, (if j = i then 0 else 1 / 2 * w i j) = ∑ i, ∑ j, if i < j then w i j else 0 := by
  have e : ∀ i j : Fin n, (if j = i then (0 : ℝ) else 1 / 2 * w i j)
      = 1 / 2 * (if i < j then w i j else 0) + 1 / 2 * (if j < i then w j i else 0) := by
    intro i j
    rcases lt_trichotomy i j with h | h | h
    · rw [if_neg h.ne', if_pos h, if_neg h.not_gt]; ring
    · subst h; simp
    · rw [if_neg h.ne, if_neg h.not_gt, if_pos h, hw i j]; ring
  simp only [e, Finset.sum_add_distrib, ← Finset.mul_sum]
  rw [Finset.sum_comm (f := fun i j : Fin n => if j < i then w j i else 0)]
  ring

end Ions
open Ions

/-- distinct ions, at least two, off the electrodes -/
structure Spec.IonsOk (els : List Elec) {n : Nat} (x : Fin n → Fin 3 → ℝ) : Prop where
  two : 2 ≤ n
  distinct : Function.Injective x
  off : ∀ i, offSystem els ⟨x i 0, x i 1, x i 2⟩

/-- C88: for two or more ions at distinct positions off the electrodes, the function to be minimised is the
energy.  (The charges do not multiply the trap potential.)  Partial: see `c88_fails` and
`c88_hessian_wrong`. -/
theorem c88_energy_partial (els : List Elec) (c : ℝ) {n : Nat} (q : Fin n → ℝ) (x : Fin n → Fin 3 → ℝ)
    (h : IonsOk els x) :
    ionsF ⟨els, some c⟩ q x = .ok (some (ionEnergy (totalAt ⟨els, some c⟩ []) q x)) := by
  obtain ⟨h2, hd, ho⟩ := h
  obtain ⟨r, hr, hv⟩ := potential_rows els c (ionList x) 0 (by omega) fun d typ => avail_of_off (ho ⟨0, by omega⟩) d typ
  unfold ionsF
  rw [hr]
  simp only
  have hp : ∀ i : Fin n, (r.getD i []).getD 0 0 = totalAt ⟨els, some c⟩ [] ⟨x i 0, x i 1, x i 2⟩ := by
    intro i
    have := hv i (by simp [ionList]) [] rfl
    simpa [at2, rowMajor, ionList] using this
  have hrow : ∀ i : Fin n, maSum (List.ofFn fun j : Fin n => maDiv (1 / 2 * (q i * q j)) (ionDist x i j))
      = some (∑ j, if j = i then 0 else 1 / 2 * (q i * q j) / ionDist x i j) := by
    intro i
    obtain ⟨k, hk⟩ : ∃ k : Fin n, k ≠ i := by
      by_cases h0 : i.val = 0
      · exact ⟨⟨1, by omega⟩, fun e => by rw [← e] at h0; simp at h0⟩
      · exact ⟨⟨0, by omega⟩, fun e => by rw [← e] at h0; simp at h0⟩
    refine maSum_pairs _ _ i k hk (ionDist_self x i) fun j hj => ?_
    rw [ionDist_eq]
    exact (dist3_pos _ _ fun e => hj (hd e)).ne'
  simp only [hrow, Option.map_some, hp]
  rw [maSum_some _ (⟨0, by omega⟩ : Fin n)]
  congr 2
  rw [ionEnergy, Finset.sum_add_distrib]
  congr 1
  have e := half_pairs (fun i j => q i * q j / dist3 (x i) (x j)) fun i j => by rw [dist3_comm, mul_comm]
  rw [← e]
  refine Finset.sum_congr rfl fun i _ => Finset.sum_congr rfl fun j _ => ?_
  split_ifs
  · rfl
  · rw [ionDist_eq, dist3_comm]; ring

/-- two ions above a polygon electrode -/
example : IonsOk [⟨"e", 1, 0, .polygons [[⟨0, 0⟩, ⟨1, 0⟩, ⟨0, 1⟩]] 50 0⟩] ![![0, 0, 1], ![0.5, 0, 1.5]] where
  two := le_rfl
  distinct := by
    intro i j h
    have h0 := congrFun h 0
    fin_cases i <;> fin_cases j <;> first | rfl | (exfalso; revert h0; norm_num)
  off := by
    intro i e he
    simp at he
    subst he
    intro m h1 h2
    have : m = 0 := by simp at h1 h2; omega
    subst this
    fin_cases i <;> norm_num [Matrix.cons_val_two]

namespace Ions

theorem dist3_deriv (u v : Fin 3 → ℝ) (h : u ≠ v) (a : Fin 3) (q : ℝ) :
    HasDerivAt (fun t => q / dist3 (Function.update u a t) v) (q * (v a - u a) / dist3 u v ^ 3) (u a) := by
  have hp := dist3_pos u v h
  have hpos : 0 < (u 0 - v 0) ^ 2 + (u 1 - v 1) ^ 2 + (u 2 - v 2) ^ 2 := sqrt_pos.mp hp
  have hin : HasDerivAt (fun t => (Function.update u a t 0 - v 0) ^ 2 + (Function.update u a t 1 - v 1) ^ 2
      + (Function.update u a t 2 - v 2) ^ 2) (2 * (u a - v a)) (u a) := by
    have i2 : ∀ c : ℝ, HasDerivAt (fun t : ℝ => (t - c) ^ 2) (2 * (u a - c)) (u a) := fun c => by
      have := ((hasDerivAt_id' (u a)).sub_const c).fun_pow 2
      refine this.congr_deriv ?_
      simp
    obtain rfl | rfl | rfl := EdgeId.axis_cases a
    · simpa [Function.update] using ((i2 (v 0)).add_const ((u 1 - v 1) ^ 2)).add_const ((u 2 - v 2) ^ 2)
    · simpa [Function.update] using ((i2 (v 1)).const_add ((u 0 - v 0) ^ 2)).add_const ((u 2 - v 2) ^ 2)
    · simpa [Function.update] using (i2 (v 2)).const_add ((u 0 - v 0) ^ 2 + (u 1 - v 1) ^ 2)
  have hs : HasDerivAt (fun t => dist3 (Function.update u a t) v) (2 * (u a - v a) / (2 * dist3 u v)) (u a) := by
    have := hin.sqrt (by simpa using hpos.ne')
    simpa [dist3] using this
  have h3 := (hasDerivAt_const (u a) q).fun_div hs (by simpa using hp.ne')
  refine h3.congr_deriv ?_
  simp only [Function.update_eq_self]
  generalize dist3 u v = r at *
  field_simp
  ring

end Ions

/-- C88: the gradient handed to the minimiser consists of the partial derivatives of the energy. -/
theorem c88_gradient_partial (els : List Elec) (c : ℝ) {n : Nat} (q : Fin n → ℝ) (x : Fin n → Fin 3 → ℝ)
    (h : IonsOk els x) :
    ∃ g : Fin n → Fin 3 → ℝ, ionsG ⟨els, some c⟩ q x = .ok (fun k a => some (g k a)) ∧
      ∀ k a, HasDerivAt (fun t => ionEnergy (totalAt ⟨els, some c⟩ []) q (moveIon x k a t)) (g k a) (x k a) := by
  obtain ⟨h2, hd, ho⟩ := h
  obtain ⟨r, hr, hv⟩ := potential_rows els c (ionList x) 1 (by omega) fun d typ => avail_of_off (ho ⟨0, by omega⟩) d typ
  refine ⟨fun i a => totalAt ⟨els, some c⟩ [a] ⟨x i 0, x i 1, x i 2⟩
    + ∑ j, if j = i then 0 else q i * q j * (x j a - x i a) / dist3 (x j) (x i) ^ 3, ?_, ?_⟩
  · unfold ionsG
    rw [hr]
    simp only
    congr 1
    funext i a
    have hp : (r.getD i []).getD a 0 = totalAt ⟨els, some c⟩ [a] ⟨x i 0, x i 1, x i 2⟩ := by
      have := hv i (by simp [ionList]) [a] rfl
      simpa [at2, rowMajor, ionList] using this
    have hrow : maSum (List.ofFn fun j : Fin n => maDiv (q i * q j * ionDiff x i j a) (ionDist x i j ^ 3))
        = some (∑ j, if j = i then 0 else q i * q j * ionDiff x i j a / ionDist x i j ^ 3) := by
      obtain ⟨k, hk⟩ : ∃ k : Fin n, k ≠ i := by
        by_cases h0 : i.val = 0
        · exact ⟨⟨1, by omega⟩, fun e => by rw [← e] at h0; simp at h0⟩
        · exact ⟨⟨0, by omega⟩, fun e => by rw [← e] at h0; simp at h0⟩
      refine maSum_pairs _ _ i k hk (by rw [ionDist_self]; norm_num) fun j hj => ?_
      rw [ionDist_eq]
      exact (pow_pos (dist3_pos _ _ fun e => hj (hd e)) 3).ne'
    rw [hrow, hp]
    rfl
  · intro k a
    unfold ionEnergy
    have h1 : HasDerivAt (fun t => ∑ i, totalAt ⟨els, some c⟩ [] ⟨moveIon x k a t i 0, moveIon x k a t i 1, moveIon x k a t i 2⟩)
        (totalAt ⟨els, some c⟩ [a] ⟨x k 0, x k 1, x k 2⟩) (x k a) := by
      have e : totalAt ⟨els, some c⟩ [a] ⟨x k 0, x k 1, x k 2⟩
          = ∑ i, if i = k then totalAt ⟨els, some c⟩ [a] ⟨x k 0, x k 1, x k 2⟩ else 0 := by simp
      rw [e]
      refine HasDerivAt.fun_sum fun i _ => ?_
      by_cases hi : i = k
      · subst hi
        rw [if_pos rfl]
        have hl := line_deriv (total_smooth els c [] (by simp)) (fun a => totalAt ⟨els, some c⟩ [a] (toV (x i))) (x i) (ho i)
          (fun a => total_step els c [] a (by simp) _ (ho i)) (Pi.single a 1) (fun t => Function.update (x i) a t) (x i a)
          (by
            rw [hasDerivAt_pi]
            intro b
            by_cases hb : b = a
            · subst hb; simpa using hasDerivAt_id' (x i b)
            · simpa [hb] using hasDerivAt_const (x i a) (x i b)) (by simp)
        refine (hl.congr_deriv ?_).congr_of_eventuallyEq (Filter.Eventually.of_forall fun t => ?_)
        · simp only [Pi.single_apply, ite_mul, one_mul, zero_mul, Finset.sum_ite_eq', Finset.mem_univ, if_true]
          rfl
        · simp [moveIon, toV]
      · rw [if_neg hi]
        simpa [moveIon, hi] using hasDerivAt_const (x k a) _
    have h3 : HasDerivAt (fun t => ∑ i, ∑ j, if i < j then q i * q j / dist3 (moveIon x k a t i) (moveIon x k a t j) else 0)
        (∑ j, if j = k then 0 else q k * q j * (x j a - x k a) / dist3 (x j) (x k) ^ 3) (x k a) := by
      have hij : ∀ i j : Fin n, HasDerivAt (fun t => if i < j then q i * q j / dist3 (moveIon x k a t i) (moveIon x k a t j) else 0)
          ((if i = k then (if k < j then q k * q j * (x j a - x k a) / dist3 (x j) (x k) ^ 3 else 0) else 0)
            + (if j = k then (if i < k then q k * q i * (x i a - x k a) / dist3 (x i) (x k) ^ 3 else 0) else 0)) (x k a) := by
        intro i j
        by_cases hlt : i < j
        · simp only [if_pos hlt]
          by_cases hi : i = k
          · subst hi
            have hj : j ≠ i := hlt.ne'
            simp only [if_pos rfl, if_pos hlt, if_neg hj, add_zero]
            have := dist3_deriv (x i) (x j) (fun e => hlt.ne (hd e)) a (q i * q j)
            rw [dist3_comm (x i) (x j)] at this
            simpa [moveIon, hj] using this
          · by_cases hj : j = k
            · subst hj
              simp only [if_neg hi, if_pos rfl, if_pos hlt, zero_add]
              have := dist3_deriv (x j) (x i) (fun e => hlt.ne' (hd e)) a (q j * q i)
              rw [dist3_comm (x j) (x i), mul_comm (q j) (q i)] at this
              rw [mul_comm (q j) (q i)]
              simp only [dist3_comm _ (x i)] at this
              simpa [moveIon, hi] using this
            · simp only [if_neg hi, if_neg hj, add_zero]
              simpa [moveIon, hi, hj] using hasDerivAt_const (x k a) _
        · simp only [if_neg hlt]
          have : ((if i = k then (if k < j then q k * q j * (x j a - x k a) / dist3 (x j) (x k) ^ 3 else 0) else 0)
            + (if j = k then (if i < k then q k * q i * (x i a - x k a) / dist3 (x i) (x k) ^ 3 else 0) else 0)) = 0 := by
            by_cases hi : i = k
            · subst hi
              by_cases hj : j = i
              · subst hj; simp
              · simp [hlt, hj]
            · by_cases hj : j = k
              · subst hj; simp [hi, hlt]
              · simp [hi, hj]
          rw [this]
          exact hasDerivAt_const _ _
      have := HasDerivAt.fun_sum (u := Finset.univ) fun i _ => HasDerivAt.fun_sum (u := Finset.univ) fun j _ => hij i j
      refine this.congr_deriv ?_
      simp only [Finset.sum_add_distrib]
      rw [Finset.sum_comm (f := fun i j => if j = k then _ else _)]
      simp only [Finset.sum_ite_irrel, Finset.sum_ite_eq', Finset.mem_univ, if_true, Finset.sum_const_zero]
      rw [← Finset.sum_add_distrib]
      refine Finset.sum_congr rfl fun j _ => ?_
      rcases lt_trichotomy j k with hj | hj | hj
      · rw [if_neg hj.not_gt, if_pos hj, if_neg hj.ne, zero_add]
      · subst hj; simp
      · rw [if_pos hj, if_neg hj.not_gt, if_neg hj.ne', add_zero]
    exact h1.add h3

/-- C88: with a single ion the function does not return a number. -/
theorem c88_single (els : List Elec) (c : ℝ) (q : Fin 1 → ℝ) (x : Fin 1 → Fin 3 → ℝ)
    (h : offSystem els ⟨x 0 0, x 0 1, x 0 2⟩) : ionsF ⟨els, some c⟩ q x = .ok none := by
  obtain ⟨r, hr, _⟩ := potential_rows els c (ionList x) 0 (by omega) fun d typ => avail_of_off h d typ
  unfold ionsF
  rw [hr]
  simp [maSum, maDiv, ionDist_self]

/-- C88: the Hessian raises `ValueError`, unless there are three ions. -/
theorem c88_hessian_fails (els : List Elec) (c : ℝ) {n : Nat} (h0 : n ≠ 0) (h3 : n ≠ 3) (q : Fin n → ℝ) (x : Fin n → Fin 3 → ℝ)
    (hav : ∀ d typ, AvailAll els d typ) : ionsH ⟨els, some c⟩ q x = .error .valueError := by
  obtain ⟨r, hr, _⟩ := potential_rows els c (ionList x) 2 (by omega) hav
  unfold ionsH
  rw [hr]
  simp only
  have hm : min n 3 = (min n 3 - 1) + 1 := by omega
  rw [hm, List.range_succ_eq_map, List.foldlM_cons]
  have : ∀ u v w, ionsStep n u v w 0 = .error .valueError := by
    intro u v w
    unfold ionsStep bdim
    by_cases h1 : n = 1
    · subst h1; rfl
    · rw [if_neg (Ne.symm h3), if_neg (by norm_num), if_neg h1]
  rw [this]
  rfl

/-- C88: so `ions` raises an exception for every number of ions other than three, whatever the minimiser
does. -/
theorem c88_fails {n : Nat} (fmin eigh) (els : List Elec) (c : ℝ) (h0 : n ≠ 0) (h3 : n ≠ 3) (q : Fin n → ℝ)
    (x0 : Fin n → Fin 3 → ℝ) (hav : ∀ d typ, AvailAll els d typ) :
    ∃ e, ions fmin eigh ⟨els, some c⟩ x0 q = .error e := by
  unfold ions
  cases fmin (ionsF ⟨els, some c⟩ q) (ionsG ⟨els, some c⟩ q) (ionsH ⟨els, some c⟩ q) x0 with
  | error e => exact ⟨e, rfl⟩
  | ok x => exact ⟨.valueError, by simp only [c88_hessian_fails els c h0 h3 q x hav]⟩

/-- the hypothesis on the electrodes holds for cover, point, polygon and mesh electrodes -/
example : ∀ d typ, AvailAll [⟨"a", 1, 0, .cover 50⟩, ⟨"b", 1, 0, .polygons [] 50 0⟩, ⟨"m", 1, 0, .mesh [] [] [] [] 50 0⟩] d typ := by
  intro d typ e he _
  simp at he
  rcases he with rfl | rfl | rfl <;> trivial

namespace Ions

/-- three ions in a row -/
def row3 : Fin 3 → Fin 3 → ℝ := ![![0, 0, 0], ![1, 0, 0], ![-1, 0, 0]]

theorem row3_ok : IonsOk [] row3 where
  two := by norm_num
  distinct := by
    intro i j h
    have h0 := congrFun h 0
    fin_cases i <;> fin_cases j <;> first | rfl | (exfalso; revert h0; simp [row3]; try norm_num)
  off := fun i e he => by simp at he

theorem row3_energy (t : ℝ) (h1 : -1 < t) (h2 : t < 1) :
    ionEnergy (fun _ => 0) (fun _ => 1) (moveIon row3 0 0 t) = 1 / (1 - t) + 1 / (1 + t) + 1 / 2 := by
  have e : ∀ a b : ℝ, 0 < b - a → dist3 ![a, 0, 0] ![b, 0, 0] = b - a := by
    intro a b h
    unfold dist3
    have : (![a, 0, 0] 0 - ![b, 0, 0] 0) ^ 2 + (![a, 0, 0] 1 - ![b, 0, 0] 1) ^ 2 + (![a, 0, 0] 2 - ![b, 0, 0] 2) ^ 2 = (b - a) ^ 2 := by
      simp; ring
    rw [this, sqrt_sq h.le]
  have m0 : moveIon row3 0 0 t 0 = ![t, 0, 0] := by
    funext a; fin_cases a <;> simp [moveIon, row3]
  have m1 : moveIon row3 0 0 t 1 = ![1, 0, 0] := by simp [moveIon, row3]
  have m2 : moveIon row3 0 0 t 2 = ![-1, 0, 0] := by simp [moveIon, row3]
  simp only [ionEnergy, Fin.sum_univ_three, m0, m1, m2]
  have d1 := e t 1 (by linarith)
  have d2 := e (-1) t (by linarith)
  have d3 := e (-1) 1 (by norm_num)
  rw [dist3_comm] at d2 d3
  rw [d1, d2, d3]
  norm_num [Fin.lt_def]
  ring

end Ions

namespace Spec

/-- the mixed second derivative of the energy of two charges, along axis `a` of ion `j` and axis `b` of ion `l` -/
noncomputable def pairCurv {n : Nat} (q : Fin n → ℝ) (x : Fin n → Fin 3 → ℝ) (j l : Fin n) (a b : Fin 3) : ℝ :=
  if j = l then 0 else q j * q l * ((if a = b then dist3 (x j) (x l) ^ 2 else 0) - 3 * (x j a - x l a) * (x j b - x l b)) / dist3 (x j) (x l) ^ 5

end Spec

namespace Ions

theorem ionsP_eq {n : Nat} (q : Fin n → ℝ) (x : Fin n → Fin 3 → ℝ) (hd : Function.Injective x) (j i : Fin n) (a b : Fin 3) :
    ionsP q x j i a b = pairCurv q x j i a b := by
  have hm : expandMap[2]? = some [.one 0, .one 1, .one 2, .one 1, .one 3, .one 4, .one 2, .one 4, .lap 0 3] := by
    decide +kernel
  have hex : ∀ c0 c1 c2 c3 c4 : ℝ, (expandTensor [c0, c1, c2, c3, c4] none).toOption.getD [] = [c0, c1, c2, c1, c3, c4, c2, c4, -c0 - c3] := fun c0 c1 c2 c3 c4 => by
    have : expandTensor [c0, c1, c2, c3, c4] none = .ok [c0, c1, c2, c1, c3, c4, c2, c4, -c0 - c3] := by
      unfold expandTensor
      simp only [Option.getD_none, List.length_cons, List.length_nil]
      norm_num
      rw [hm]
      simp [pySeq, selValue, pyGet]
    rw [this]; rfl
  unfold ionsP
  simp only [List.map_cons, List.map_nil, hex]
  by_cases hji : j = i
  · subst hji
    have hz : ∀ a, ionDiff x j j a = 0 := fun a => by simp [ionDiff]
    unfold pairCurv
    rw [if_pos rfl]
    simp only [hz, ionDist_self]
    fin_cases a <;> fin_cases b <;> simp [maDiv]
  · have hpos : 0 < dist3 (x j) (x i) := dist3_pos _ _ fun e => hji (hd e)
    have hsq : dist3 (x j) (x i) ^ 2 = (x j 0 - x i 0) ^ 2 + (x j 1 - x i 1) ^ 2 + (x j 2 - x i 2) ^ 2 := by
      unfold dist3; rw [sq_sqrt (by positivity)]
    unfold pairCurv
    rw [if_neg hji, hsq]
    have hdiv : ∀ v, (maDiv v (ionDist x i j ^ 5)).getD v = v / dist3 (x j) (x i) ^ 5 := fun v => by
      rw [maDiv, ionDist_eq, if_neg (pow_ne_zero 5 hpos.ne')]; rfl
    simp only [hdiv, ionDiff]
    fin_cases a <;> fin_cases b <;> simp <;> ring

end Ions

/-- C88: what the matrix contains for three ions instead.  Entry `[a, j, b, l]`, in row `3a+j` and column `3b+l`, belongs to axis `a` of ion `j` and axis `b` of ion `l`, other
than the entries of the gradient and of the positions; and the curvatures of the trap at ion `a` are added to the entries `j`, `l` of axis `a`, where the curvatures of axis
`a` summed over the other axis are removed. -/
theorem c88_hessian_entries (els : List Elec) (c : ℝ) (q : Fin 3 → ℝ) (x : Fin 3 → Fin 3 → ℝ) (h : IonsOk els x) :
    ∃ H, ionsH ⟨els, some c⟩ q x = .ok H ∧ ∀ a j b l : Fin 3, H a j b l = pairCurv q x j l a b
      + if a = b then totalAt ⟨els, some c⟩ [l, j] ⟨x a 0, x a 1, x a 2⟩ - ∑ b', pairCurv q x j l a b' else 0 := by
  obtain ⟨-, hd, ho⟩ := h
  obtain ⟨r, hr, hv⟩ := potential_rows els c (ionList x) 2 (by omega) fun d typ => avail_of_off (ho 0) d typ
  have hT : ∀ a j b l : Fin 3, ionsT q x a j b l = pairCurv q x j l a b := fun a j b l => by
    unfold ionsT atFin
    rw [dif_pos ⟨a.2, b.2⟩, dif_pos ⟨j.2, l.2⟩]
    exact ionsP_eq q x hd j l a b
  have hp : ∀ a j l : Fin 3, (r.getD a []).getD (3 * l.val + j.val) 0 = totalAt ⟨els, some c⟩ [l, j] ⟨x a 0, x a 1, x a 2⟩ := fun a j l => by
    have := hv a (by simp [ionList]) [l, j] rfl
    rw [show (ionList x)[a.val]'(by simp [ionList]) = ⟨x a 0, x a 1, x a 2⟩ by simp only [ionList, List.getElem_ofFn, Fin.eta]] at this
    rw [← this]
    simp [at2, rowMajor, mul_comm]
  have hsum : ∀ a j l : Fin 3, ∑ b ∈ Finset.range 3, ionsT q x a j b l = ∑ b', pairCurv q x j l a b' := fun a j l => by
    rw [Finset.sum_range]
    exact Finset.sum_congr rfl fun b _ => hT a j b l
  refine ⟨_, by unfold ionsH; rw [hr]; rfl, fun a j b l => ?_⟩
  have e0 := hp 0 j l
  have e1 := hp 1 j l
  have e2 := hp 2 j l
  have s0 := hsum 0 j l
  have s1 := hsum 1 j l
  have s2 := hsum 2 j l
  have hab := hT a j b l
  fin_cases a <;> fin_cases b <;> simp [bix] at e0 e1 e2 s0 s1 s2 hab ⊢ <;> simp [e0, e1, e2, s0, s1, s2, hab]

/-- the hypotheses are met -/
example : IonsOk [] row3 := row3_ok

/-- C88: with three ions the matrix handed to the minimiser is not the matrix of second derivatives.  For three ions in
a row with unit charges and no trap potential, its entry in row 0 and column 0, which belongs
to the first coordinate of the first ion, is not the second derivative of the energy with respect to it. -/
theorem c88_hessian_wrong : ∃ H, ionsH ⟨[], some 1⟩ (fun _ => 1) row3 = .ok H ∧
    ∀ g : ℝ → ℝ, (∀ᶠ t in nhds 0, HasDerivAt (fun t => ionEnergy (fun _ => 0) (fun _ => 1) (moveIon row3 0 0 t)) (g t) t) →
      ¬ HasDerivAt g (H 0 0 0 0) 0 := by
  obtain ⟨r, hr, hv⟩ := potential_rows [] 1 (ionList row3) 2 (by omega) (by intro d typ e he; simp at he)
  have h00 : (r.getD 0 []).getD 0 0 = 0 := by
    have := hv 0 (by simp [ionList]) [0, 0] rfl
    rw [total_split [] 1 [0, 0] (by simp) _ (by intro d typ e he; simp at he)] at this
    simpa [at2, rowMajor, sysTens_eq, psT] using this
  have hT : ∀ b < 3, ionsT (fun _ => 1) row3 0 0 b 0 = 0 := by
    intro b hb
    unfold ionsT atFin
    rw [dif_pos ⟨by norm_num, hb⟩, dif_pos ⟨by norm_num, by norm_num⟩]
    have hz : ∀ a, ionDiff row3 (⟨0, by norm_num⟩ : Fin 3) ⟨0, by norm_num⟩ a = 0 := fun a => by simp [ionDiff]
    unfold ionsP
    simp only [hz]
    have hc : ([2 * (0 : ℝ) ^ 2 - 0 ^ 2 - 0 ^ 2, 3 * 0 * 0, 3 * 0 * 0, 2 * 0 ^ 2 - 0 ^ 2 - 0 ^ 2, 3 * 0 * 0].map fun v =>
        (maDiv (-((1 : ℝ) * 1) * v) (ionDist row3 (⟨0, by norm_num⟩ : Fin 3) ⟨0, by norm_num⟩ ^ 5)).getD (-(1 * 1) * v)) = [0, 0, 0, 0, 0] := by
      simp [maDiv, ionDist_self]
    rw [hc]
    have hx : (expandTensor ([0, 0, 0, 0, 0] : List ℝ) none).toOption.getD [] = List.replicate 9 0 := by
      have hm : expandMap[2]? = some [.one 0, .one 1, .one 2, .one 1, .one 3, .one 4, .one 2, .one 4, .lap 0 3] := by
        decide +kernel
      have : expandTensor ([0, 0, 0, 0, 0] : List ℝ) none = .ok (List.replicate 9 0) := by
        unfold expandTensor
        simp only [Option.getD_none, List.length_cons, List.length_nil]
        norm_num
        rw [hm]
        simp [pySeq, selValue, pyGet]
      rw [this]; rfl
    rw [hx]
    interval_cases b <;> rfl
  refine ⟨_, by unfold ionsH; rw [hr]; rfl, ?_⟩
  intro g hg hd
  have hH : ∀ w : ℝ, HasDerivAt g w 0 → w = 4 := by
    intro w hw
    have e1 : g =ᶠ[nhds 0] fun t => 1 / (1 - t) ^ 2 - 1 / (1 + t) ^ 2 := by
      filter_upwards [hg, Ioo_mem_nhds (show (-1 : ℝ) < 0 by norm_num) (show (0 : ℝ) < 1 by norm_num)] with t ht hI
      have h1 : (1 - t) ≠ 0 := by have := hI.2; linarith
      have h2 : (1 + t) ≠ 0 := by have := hI.1; linarith
      have d1 := (hasDerivAt_const t (1 : ℝ)).fun_div ((hasDerivAt_id' t).const_sub 1) h1
      have d2 := (hasDerivAt_const t (1 : ℝ)).fun_div ((hasDerivAt_id' t).const_add 1) h2
      have d3 := ((d1.fun_add d2).add_const (1 / 2 : ℝ))
      have ev : (fun t => ionEnergy (fun _ => 0) (fun _ => 1) (moveIon row3 0 0 t)) =ᶠ[nhds t]
          fun t => 1 / (1 - t) + 1 / (1 + t) + 1 / 2 := by
        filter_upwards [Ioo_mem_nhds hI.1 hI.2] with u hu
        exact row3_energy u hu.1 hu.2
      have := (ht.congr_of_eventuallyEq ev.symm).unique d3
      rw [this]
      field_simp
      ring
    have h2 := hw.congr_of_eventuallyEq e1.symm
    have d1 := (hasDerivAt_const (0 : ℝ) (1 : ℝ)).fun_div (((hasDerivAt_id' (0 : ℝ)).const_sub 1).fun_pow 2) (by norm_num)
    have d2 := (hasDerivAt_const (0 : ℝ) (1 : ℝ)).fun_div (((hasDerivAt_id' (0 : ℝ)).const_add 1).fun_pow 2) (by norm_num)
    have := h2.unique (d1.fun_sub d2)
    rw [this]
    norm_num
  have h4 := hH _ hd
  have hz : ∑ b ∈ Finset.range 3, ionsT (fun _ => 1) row3 0 0 b 0 = 0 :=
    Finset.sum_eq_zero fun b hb => hT b (Finset.mem_range.mp hb)
  have hT0 := hT 0 (by norm_num)
  rw [if_neg (by norm_num)] at h4
  beta_reduce at h4
  rw [if_neg (by norm_num), if_pos ⟨rfl, rfl⟩] at h4
  have hb : bix 3 0 = 0 := rfl
  simp only [hb, hT0, hz, mul_zero, add_zero, h00] at h4
  norm_num at h4

end Electrode
