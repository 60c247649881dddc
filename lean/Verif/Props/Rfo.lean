import Verif.Props.Modes

/-
C45, C75: the search for a saddle point.
-/
namespace Electrode
open Spec
variable {n : Nat}

/-- states reached from the start -/
def RfoState (eigh : Eigh) (argsort : Argsort) (A : RArgs n) (x0 : Fin n → ℝ) (h : Option (Matrix (Fin n) (Fin n) ℝ)) (k : Nat)
    (st : RState n) : Prop := RReach eigh argsort A (rfoInit A x0 h) k st

/-- what a pass does that does not leave the loop -/
theorem step_go (eigh : Eigh) (argsort : Argsort) (A : RArgs n) (st st' : RState n) (hs : rfoStep eigh argsort A st = .go st') :
    st.ret = none ∧ ∃ h dx0, st.h = some h ∧ rfoRaw eigh argsort h st.g = some dx0 ∧
      st' = ⟨st.it + 1, fun i => st.x i + rfoClip A.dxMax dx0 i,
        st.f + (A.fun' (fun i => st.x i + rfoClip A.dxMax dx0 i) - st.f),
        fun i => st.g i + (A.grad (fun i => st.x i + rfoClip A.dxMax dx0 i) i - st.g i),
        (rfoUpdate h (rfoClip A.dxMax dx0) fun i => A.grad (fun i => st.x i + rfoClip A.dxMax dx0 i) i - st.g i).map
          fun d i j => h i j + d i j,
        rfoRet A (st.it + 1) st.ret st.x (rfoClip A.dxMax dx0) st.f (A.fun' (fun i => st.x i + rfoClip A.dxMax dx0 i) - st.f)⟩ := by
  unfold rfoStep at hs
  cases hr : st.ret with
  | some r => simp only [hr] at hs; cases hs
  | none =>
    simp only [hr] at hs
    cases hh : st.h with
    | none => simp only [hh] at hs; cases hs
    | some h =>
      simp only [hh] at hs
      cases hx : rfoRaw eigh argsort h st.g with
      | none => simp only [hx] at hs; cases hs
      | some dx0 =>
        simp only [hx] at hs
        injection hs with hs
        exact ⟨rfl, h, dx0, rfl, hx, hs.symm⟩

/-- **C45.** At every iteration the value and the gradient kept are those of the function at the point kept. -/
theorem c45_consistent (eigh : Eigh) (argsort : Argsort) (A : RArgs n) (x0 : Fin n → ℝ) (h : Option (Matrix (Fin n) (Fin n) ℝ)) (k : Nat)
    (st : RState n) (hst : RfoState eigh argsort A x0 h k st) : st.it = k ∧ st.f = A.fun' st.x ∧ st.g = A.grad st.x := by
  unfold RfoState at hst
  generalize hi : rfoInit A x0 h = st0 at hst
  induction hst with
  | zero => subst hi; exact ⟨rfl, rfl, rfl⟩
  | succ hr hs ih =>
    obtain ⟨h1, -, -⟩ := ih
    obtain ⟨-, hm, dx0, -, -, rfl⟩ := step_go eigh argsort A _ _ hs
    exact ⟨by rw [h1], by simp, funext fun i => by simp⟩

theorem norm2_smul (c : ℝ) (v : Fin n → ℝ) : norm2 (fun i => v i / c) = norm2 v / |c| := by
  unfold norm2
  have : ∀ i, (v i / c) ^ 2 = v i ^ 2 / c ^ 2 := fun i => div_pow _ _ _
  simp only [this]
  rw [← Finset.sum_div, Real.sqrt_div (Finset.sum_nonneg fun i _ => sq_nonneg _), Real.sqrt_sq_eq_abs]

/-- **C45.** No step is longer than `dx_max`. -/
theorem c45_step (eigh : Eigh) (argsort : Argsort) (A : RArgs n) (hd : 0 < A.dxMax) (st st' : RState n)
    (hs : rfoStep eigh argsort A st = .go st') : norm2 (fun i => st'.x i - st.x i) ≤ A.dxMax := by
  obtain ⟨-, h, dx0, -, -, rfl⟩ := step_go eigh argsort A st st' hs
  have e : (fun i => st.x i + rfoClip A.dxMax dx0 i - st.x i) = fun i => dx0 i / max 1 (norm2 dx0 / A.dxMax) := by
    funext i; simp [rfoClip]
  simp only [e]
  rw [norm2_smul]
  have hm : 0 < max 1 (norm2 dx0 / A.dxMax) := lt_max_of_lt_left one_pos
  rw [abs_of_pos hm, div_le_iff₀ hm]
  have := le_max_right 1 (norm2 dx0 / A.dxMax)
  rw [div_le_iff₀ hd] at this
  linarith

/-- **C45.** Started with a symmetric matrix or none, the approximate Hessian is symmetric at every iteration. -/
theorem c45_symmetric (eigh : Eigh) (argsort : Argsort) (A : RArgs n) (x0 : Fin n → ℝ) (h : Option (Matrix (Fin n) (Fin n) ℝ))
    (hsym : ∀ h0, h = some h0 → ∀ i j, h0 i j = h0 j i) (k : Nat)
    (st : RState n) (hst : RfoState eigh argsort A x0 h k st) (H : Matrix (Fin n) (Fin n) ℝ) (hH : st.h = some H) (i j : Fin n) :
    H i j = H j i := by
  unfold RfoState at hst
  generalize hi : rfoInit A x0 h = st0 at hst
  induction hst generalizing H i j with
  | zero =>
    subst hi
    simp only [rfoInit, Option.some.injEq] at hH
    subst hH
    cases h with
    | none => simp [Matrix.one_apply, eq_comm]
    | some h0 => exact hsym h0 rfl i j
  | succ hr hs ih =>
    obtain ⟨-, hm, dx0, h1, -, rfl⟩ := step_go eigh argsort A _ _ hs
    obtain ⟨d, hd, rfl⟩ := Option.map_eq_some_iff.1 hH
    have hm' := ih hm h1 i j
    unfold rfoUpdate at hd
    simp only at hd
    split at hd
    · cases hd
    · injection hd with hd
      subst hd
      simp only [hm']
      ring

/-- **C45.** After every step after which the approximate Hessian is defined, it satisfies the secant equation: it maps the
last step to the last change of the gradient. -/
theorem c45_secant (eigh : Eigh) (argsort : Argsort) (A : RArgs n) (st st' : RState n)
    (hs : rfoStep eigh argsort A st = .go st') (H : Matrix (Fin n) (Fin n) ℝ) (hH : st'.h = some H) (i : Fin n) :
    ∑ j, H i j * (st'.x j - st.x j) = st'.g i - st.g i := by
  obtain ⟨-, h, dx0, h1, -, rfl⟩ := step_go eigh argsort A _ _ hs
  obtain ⟨d, hd, rfl⟩ := Option.map_eq_some_iff.1 hH
  generalize hdx : rfoClip A.dxMax dx0 = dx at hd ⊢
  have ex : ∀ j, st.x j + dx j - st.x j = dx j := fun j => by ring
  have eg : st.g i + (A.grad (fun i => st.x i + dx i) i - st.g i) - st.g i = A.grad (fun i => st.x i + dx i) i - st.g i := by ring
  simp only [ex]
  rw [eg]
  generalize A.grad (fun i => st.x i + dx i) = g' at hd ⊢
  unfold rfoUpdate at hd
  simp only at hd
  split at hd
  · cases hd
  · rename_i hne
    push Not at hne
    injection hd with hd
    obtain ⟨hxx, hpx, hpp⟩ := hne
    generalize hdp : (fun i => g' i - st.g i - ∑ j, h i j * dx j) = dp at hd hpx hpp
    have hdpi : g' i - st.g i = dp i + ∑ j, h i j * dx j := by rw [← hdp]; ring
    have hdj : ∀ i, g' i - st.g i - ∑ j, h i j * dx j = dp i := fun i => congrFun hdp i
    simp only [hdj] at hd
    rw [hdpi, ← hd]
    have key : ∀ (al be : ℝ) (F : Fin n → ℝ), (∀ j, F j = h i j + (al * dp j + be * dx j)) →
        ∑ j, F j * dx j = ∑ j, h i j * dx j + (al * inner' dp dx + be * inner' dx dx) := by
      intro al be F hF
      unfold inner'
      rw [Finset.mul_sum, Finset.mul_sum, ← Finset.sum_add_distrib, ← Finset.sum_add_distrib]
      exact Finset.sum_congr rfl fun j _ => by rw [hF]; ring
    set phi := inner' dp dx ^ 2 / (inner' dp dp * inner' dx dx)
    rw [key (phi * (dp i / inner' dp dx) + (1 - phi) * (dx i / inner' dx dx))
      ((1 - phi) * (dp i / inner' dx dx - inner' dp dx * dx i / inner' dx dx ^ 2)) _ fun j => by ring]
    field_simp
    ring

theorem ret_none (A : RArgs n) (it : Nat) (ret : Option String) (x dx : Fin n → ℝ) (f df : ℝ)
    (h : rfoRet A it ret x dx f df = none) : 0 < A.maxiter → (it : ℤ) ≤ A.maxiter := by
  intro hm
  unfold rfoRet at h
  simp only at h
  split at h
  · cases h
  · rename_i hne
    by_contra hcon
    exact hne ⟨hm, by omega⟩

/-- **C45 (partial).** For `maxiter > 0` at most `maxiter + 1` steps are made.  Missing: one step less, see
`c45_one_more`. -/
theorem c45_iterations_partial (eigh : Eigh) (argsort : Argsort) (A : RArgs n) (hm : 0 < A.maxiter) (x0 : Fin n → ℝ)
    (h : Option (Matrix (Fin n) (Fin n) ℝ)) (k : Nat) (st : RState n) (hst : RfoState eigh argsort A x0 h k st) :
    (k : ℤ) ≤ A.maxiter + 1 := by
  unfold RfoState at hst
  have hit := fun st (hst : RReach eigh argsort A (rfoInit A x0 h) k st) => (c45_consistent eigh argsort A x0 h k st hst).1
  have hret : ∀ k st, RReach eigh argsort A (rfoInit A x0 h) k st → st.ret = none → (k : ℤ) ≤ A.maxiter := by
    intro k st hr hn
    cases hr with
    | zero => simpa using hm.le
    | succ hr hs =>
      obtain ⟨-, hm', dx0, -, -, rfl⟩ := step_go eigh argsort A _ _ hs
      have := ret_none _ _ _ _ _ _ _ hn hm
      rw [(c45_consistent eigh argsort A x0 h _ _ hr).1] at this
      exact_mod_cast this
  cases hst with
  | zero => simp; omega
  | succ hr hs =>
    have := hret _ _ hr (step_go eigh argsort A _ _ hs).1
    push_cast
    omega

theorem run_none (eigh : Eigh) (argsort : Argsort) (A : RArgs n) (fuel : Nat) (st0 st : RState n) (k : Nat)
    (hr : RReach eigh argsort A st0 k st) (h : rfoRun eigh argsort A fuel st = none) :
    ∃ st', RReach eigh argsort A st0 (k + fuel) st' := by
  induction fuel generalizing st k with
  | zero => exact ⟨st, hr⟩
  | succ fuel ih =>
    unfold rfoRun at h
    cases hs : rfoStep eigh argsort A st with
    | stop x f r => rw [hs] at h; cases h
    | nan => rw [hs] at h; cases h
    | go st' =>
      rw [hs] at h
      obtain ⟨st2, h2⟩ := ih st' (k + 1) (.succ hr hs) h
      exact ⟨st2, by rwa [show k + (fuel + 1) = k + 1 + fuel by omega]⟩

/-- for `maxiter > 0` the search ends -/
theorem c45_terminates (eigh : Eigh) (argsort : Argsort) (A : RArgs n) (hm : 0 < A.maxiter) (x0 : Fin n → ℝ)
    (h : Option (Matrix (Fin n) (Fin n) ℝ)) : ∃ r, rfoRun eigh argsort A (A.maxiter.toNat + 2) (rfoInit A x0 h) = some r := by
  by_contra hcon
  push Not at hcon
  have hn : rfoRun eigh argsort A (A.maxiter.toNat + 2) (rfoInit A x0 h) = none := Option.eq_none_iff_forall_ne_some.2 hcon
  obtain ⟨st, hst⟩ := run_none eigh argsort A _ _ _ 0 (.zero _) hn
  have := c45_iterations_partial eigh argsort A hm x0 h _ st hst
  omega

theorem run_some (eigh : Eigh) (argsort : Argsort) (A : RArgs n) (fuel : Nat) (st0 st : RState n) (k : Nat)
    (hr : RReach eigh argsort A st0 k st) (x f r) (h : rfoRun eigh argsort A fuel st = some (some (x, f, r))) :
    ∃ k' st', RReach eigh argsort A st0 k' st' ∧ st'.x = x ∧ st'.f = f ∧ st'.ret = some r := by
  induction fuel generalizing st k with
  | zero => cases h
  | succ fuel ih =>
    unfold rfoRun at h
    cases hs : rfoStep eigh argsort A st with
    | stop x' f' r' =>
      rw [hs] at h
      simp only [Option.some.injEq, Prod.mk.injEq] at h
      obtain ⟨rfl, rfl, rfl⟩ := h
      unfold rfoStep at hs
      cases hret : st.ret with
      | some r =>
        simp only [hret] at hs
        injection hs with h1 h2 h3
        exact ⟨k, st, hr, h1, h2, by rw [hret, h3]⟩
      | none =>
        simp only [hret] at hs
        cases hh : st.h with
        | none => simp only [hh] at hs; cases hs
        | some h =>
          simp only [hh] at hs
          cases hx : rfoRaw eigh argsort h st.g with
          | none => simp only [hx] at hs; cases hs
          | some dx0 => simp only [hx] at hs; cases hs
    | nan => rw [hs] at h; cases h
    | go st' =>
      rw [hs] at h
      exact ih st' (k + 1) (.succ hr hs) h

/-- What is returned: the function value is that of the point, the point was reached by a last step, and the reason is one
of three: the step was short, the value changed little, or more than `maxiter` steps were made. -/
theorem c45_result (eigh : Eigh) (argsort : Argsort) (A : RArgs n) (x0 : Fin n → ℝ)
    (h : Option (Matrix (Fin n) (Fin n) ℝ)) (fuel : Nat) (x f r)
    (hr : rfoRun eigh argsort A fuel (rfoInit A x0 h) = some (some (x, f, r))) :
    f = A.fun' x ∧ ∃ k st st', RfoState eigh argsort A x0 h k st ∧ rfoStep eigh argsort A st = .go st' ∧ st'.x = x ∧
      ((r = "xtol" ∧ 2 * norm2 (fun i => x i - st.x i) ≤ A.xtol * (norm2 x + norm2 st.x + 1e-20)) ∨
        (r = "ftol" ∧ 2 * |f - A.fun' st.x| ≤ A.ftol * (|f| + |A.fun' st.x| + 1e-20)) ∨
        (r = "iter" ∧ 0 < A.maxiter ∧ A.maxiter < k + 1)) := by
  obtain ⟨k, st', h1, rfl, rfl, h4⟩ := run_some eigh argsort A fuel _ _ 0 (.zero _) x f r hr
  refine ⟨(c45_consistent eigh argsort A x0 h k st' h1).2.1, ?_⟩
  cases h1 with
  | zero => cases h4
  | @succ st _ k hr' hs =>
    obtain ⟨c1, c2, -⟩ := c45_consistent eigh argsort A x0 h k st hr'
    refine ⟨k, st, st', hr', hs, rfl, ?_⟩
    obtain ⟨hn, hm', dx0, -, -, rfl⟩ := step_go eigh argsort A _ _ hs
    simp only at h4
    rw [hn] at h4
    have e1 : (fun i => st.x i + rfoClip A.dxMax dx0 i - st.x i) = rfoClip A.dxMax dx0 := by funext i; ring
    simp only [e1]
    rw [← c2]
    unfold rfoRet at h4
    simp only at h4
    split at h4
    · rename_i hc
      injection h4 with h4
      refine Or.inr (Or.inr ⟨h4.symm, hc.1, ?_⟩)
      have := hc.2
      rw [c1] at this
      exact_mod_cast this
    · split at h4
      · rename_i hc
        injection h4 with h4
        refine Or.inr (Or.inl ⟨h4.symm, ?_⟩)
        have e : st.f + (A.fun' (fun i => st.x i + rfoClip A.dxMax dx0 i) - st.f) - st.f =
            A.fun' (fun i => st.x i + rfoClip A.dxMax dx0 i) - st.f := by ring
        rw [e]
        exact hc
      · split at h4
        · rename_i hc
          injection h4 with h4
          exact Or.inl ⟨h4.symm, hc⟩
        · cases h4

/-! ### C75 -/

namespace Spec
/-- a sorting that leaves sorted values in place -/
def KeepsSorted (argsort : Argsort) : Prop := ∀ l : List ℝ, l.Pairwise (· ≤ ·) → argsort l = List.range l.length
end Spec

/-- **C75.** Each step goes up along the softest mode of the approximate Hessian and down along all others: there is a basis of
orthonormal eigenvectors with ascending eigenvalues, such that the product of the components of the gradient and of the step
along the first is not negative and along the others not positive. -/
theorem c75_direction (eigh : Eigh) (heigh : IsEigh eigh) (argsort : Argsort) (hsort : KeepsSorted argsort) (A : RArgs n)
    (st st' : RState n) (H : Matrix (Fin n) (Fin n) ℝ) (hH : st.h = some H) (hsym : ∀ i j, H i j = H j i)
    (hs : rfoStep eigh argsort A st = .go st') :
    ∃ (l : Fin n → ℝ) (v : Matrix (Fin n) (Fin n) ℝ), Monotone l ∧ (∀ i j, ∑ k, H i k * v k j = l j * v i j) ∧
      (∀ j j', ∑ i, v i j * v i j' = if j = j' then 1 else 0) ∧
      ∀ j : Fin n, let up := (∑ i, v i j * st.g i) * ∑ i, v i j * (st'.x i - st.x i)
        (j.val = 0 → 0 ≤ up) ∧ (j.val ≠ 0 → up ≤ 0) := by
  obtain ⟨-, h, dx0, h1, hraw, rfl⟩ := step_go eigh argsort A _ _ hs
  rw [hH] at h1
  injection h1 with h1
  subst h1
  obtain ⟨hlen, hasc, heq, hort⟩ := heigh n H hsym
  have hrange := hsort _ hasc
  rw [hlen] at hrange
  have hrows : takeRows (eigh n H).2 (argsort (eigh n H).1) = (eigh n H).2 := by
    funext k j
    unfold takeRows
    have e : (argsort (eigh n H).1).getD k 0 = k.val := by
      rw [hrange, List.getD_eq_getElem _ _ (by simp), List.getElem_range]
    rw [dif_pos (by rw [e]; exact k.isLt)]
    exact congrArg (fun q => (eigh n H).2 q j) (Fin.ext e)
  refine ⟨fun j => (eigh n H).1.getD j 0, (eigh n H).2, ?_, heq, hort, ?_⟩
  · intro a b hab
    simp only
    rw [List.getD_eq_getElem _ _ (by rw [hlen]; exact a.isLt), List.getD_eq_getElem _ _ (by rw [hlen]; exact b.isLt)]
    rcases hab.eq_or_lt with rfl | hlt
    · exact le_rfl
    · exact List.pairwise_iff_getElem.1 hasc _ _ _ _ hlt
  · unfold rfoRaw at hraw
    simp only [hrows] at hraw
    split at hraw
    · cases hraw
    · injection hraw with hraw
      intro j
      have e1 : ∀ i, st.x i + rfoClip A.dxMax dx0 i - st.x i = dx0 i / max 1 (norm2 dx0 / A.dxMax) := fun i => by
        simp [rfoClip]
      simp only [e1]
      have hm : 0 < max 1 (norm2 dx0 / A.dxMax) := lt_max_of_lt_left one_pos
      set M := max 1 (norm2 dx0 / A.dxMax)
      set v := (eigh n H).2 with hv
      set gl : Fin n → ℝ := fun j => ∑ i, v i j * st.g i with hgl
      set lam : Fin n → ℝ := fun j => (takeIdx (eigh n H).1 (argsort (eigh n H).1)).getD j 0
      set s : Fin n → ℝ := fun j => |lam j| + √(lam j ^ 2 + 4 * gl j ^ 2) with hsd
      have hs0 : ∀ j, 0 ≤ s j := fun j => add_nonneg (abs_nonneg _) (Real.sqrt_nonneg _)
      have e2 : ∑ i, v i j * (dx0 i / M) = -(gl j / ((1 / 2) * (if j.val = 0 then -1 else 1) * s j)) / M := by
        have : ∀ i, v i j * (dx0 i / M) = (-∑ j', v i j * v i j' * (gl j' / ((1 / 2) * (if j'.val = 0 then -1 else 1) * s j'))) / M := by
          intro i
          rw [← hraw]
          simp only [mul_assoc, ← Finset.mul_sum]
          ring
        rw [Finset.sum_congr rfl fun i _ => this i, ← Finset.sum_div, Finset.sum_neg_distrib, Finset.sum_comm]
        congr 2
        rw [Finset.sum_eq_single j]
        · rw [← Finset.sum_mul, hort, if_pos rfl, one_mul]
        · intro j' _ hne
          rw [← Finset.sum_mul, hort, if_neg (Ne.symm hne), zero_mul]
        · simp
      rw [e2]
      constructor
      · intro h0
        rw [if_pos h0]
        have : gl j * (-(gl j / (1 / 2 * -1 * s j)) / M) = 2 * gl j ^ 2 / s j / M := by
          by_cases hz : s j = 0
          · simp [hz]
          · field_simp
        rw [this]
        have := hs0 j
        positivity
      · intro h0
        rw [if_neg h0]
        have : gl j * (-(gl j / (1 / 2 * 1 * s j)) / M) = -(2 * gl j ^ 2 / s j / M) := by
          by_cases hz : s j = 0
          · simp [hz]
          · field_simp
        rw [this]
        have h3 := hs0 j
        have : 0 ≤ 2 * gl j ^ 2 / s j / M := by positivity
        linarith

/-- **C45.** Started at a stationary point with a Hessian without zero modes, the search returns that point. -/
theorem c45_fixed (eigh : Eigh) (heigh : IsEigh eigh) (argsort : Argsort) (hsort : KeepsSorted argsort) (A : RArgs n)
    (hf : 0 ≤ A.ftol) (x0 : Fin n → ℝ) (hg : A.grad x0 = 0) (H : Matrix (Fin n) (Fin n) ℝ) (hsym : ∀ i j, H i j = H j i)
    (hns : ∀ w : Fin n → ℝ, (∀ i, ∑ k, H i k * w k = 0) → w = 0) :
    rfoRun eigh argsort A 2 (rfoInit A x0 (some H)) = some (some (x0, A.fun' x0, "ftol")) := by
  obtain ⟨hlen, hasc, heq, hort⟩ := heigh n H hsym
  have hrange := hsort _ hasc
  have htake : takeIdx (eigh n H).1 (argsort (eigh n H).1) = (eigh n H).1 := by
    rw [hrange, takeIdx_eq _ 0 _ fun k hk => List.mem_range.1 hk]
    refine List.ext_getElem (by simp) fun i h1 h2 => ?_
    rw [List.getElem_map, List.getElem_range, List.getD_eq_getElem]
  have hraw : rfoRaw eigh argsort H (fun _ => 0) = some fun _ => 0 := by
    unfold rfoRaw
    simp only [mul_zero, Finset.sum_const_zero, zero_div, neg_zero]
    rw [if_neg]
    rintro ⟨j, hj⟩
    rw [htake] at hj
    have hl : (eigh n H).1.getD j 0 = 0 := by
      by_contra hl
      have : 0 < |(eigh n H).1.getD j 0| := abs_pos.2 hl
      have h2 := Real.sqrt_nonneg (((eigh n H).1.getD j 0) ^ 2 + 4 * 0 ^ 2)
      have h3 : |(eigh n H).1.getD j 0| + √(((eigh n H).1.getD j 0) ^ 2 + 4 * 0 ^ 2) ≠ 0 := by positivity
      refine mul_ne_zero (mul_ne_zero (by norm_num) ?_) h3 hj
      split <;> norm_num
    have hw := hns (fun k => (eigh n H).2 k j) fun i => by rw [heq, hl, zero_mul]
    have h1 := hort j j
    rw [if_pos rfl] at h1
    simp only [funext_iff, Pi.zero_apply] at hw
    simp [hw] at h1
  have hclip : rfoClip A.dxMax (fun _ : Fin n => 0) = fun _ => 0 := by funext i; simp [rfoClip]
  have hs : rfoStep eigh argsort A (rfoInit A x0 (some H)) =
      .go ⟨1, x0, A.fun' x0, 0, none, some "ftol"⟩ := by
    unfold rfoStep
    have e : (Option.getD (some H) 1) = H := rfl
    have hg' : A.grad x0 = fun _ => 0 := hg
    simp only [rfoInit, e, hg', hraw, hclip, add_zero, sub_self]
    simp only [RNext.go.injEq, RState.mk.injEq]
    refine ⟨trivial, trivial, trivial, rfl, ?_, ?_⟩
    · refine Option.map_eq_none_iff.2 ?_
      unfold rfoUpdate
      exact if_pos (Or.inl (by simp [inner']))
    · unfold rfoRet
      simp only
      rw [if_neg (by push_cast; omega), if_pos]
      simp only [abs_zero, mul_zero, add_zero]
      positivity
  unfold rfoRun
  rw [hs]
  simp only
  unfold rfoRun rfoStep
  rfl

/-! ### what does not hold -/

/-- The secant equation cannot be kept when the approximate Hessian was exact along the step: the update divides by zero,
and the next iteration has no Hessian. -/
theorem c45_hessian_lost (eigh : Eigh) (argsort : Argsort) (A : RArgs n) (st st' : RState n) (H : Matrix (Fin n) (Fin n) ℝ)
    (hH : st.h = some H) (hs : rfoStep eigh argsort A st = .go st')
    (hex : ∀ i, st'.g i - st.g i = ∑ j, H i j * (st'.x j - st.x j)) : st'.h = none := by
  obtain ⟨-, h, dx0, h1, -, rfl⟩ := step_go eigh argsort A _ _ hs
  rw [hH] at h1
  injection h1 with h1
  subst h1
  refine Option.map_eq_none_iff.2 ?_
  simp only [add_sub_cancel_left] at hex
  unfold rfoUpdate
  simp only
  refine if_pos (Or.inr (Or.inl ?_))
  unfold inner'
  refine Finset.sum_eq_zero fun i _ => ?_
  exact mul_eq_zero_of_left (sub_eq_zero.2 (hex i)) _

/-- eigenvalues and eigenvectors of a 1 by 1 matrix -/
noncomputable def eigh1 : Eigh := fun _ A => (List.ofFn fun j => A j j, 1)

/-- sorting of at most one value -/
def argsort1 : Argsort := fun l => List.range l.length

theorem raw1 (h g : ℝ) : rfoRaw (n := 1) eigh1 argsort1 (fun _ _ => h) (fun _ => g) =
    if |h| + √(h ^ 2 + 4 * g ^ 2) = 0 then none else some fun _ => 2 * g / (|h| + √(h ^ 2 + 4 * g ^ 2)) := by
  have hl : takeIdx (eigh1 1 fun _ _ => h).1 (argsort1 (eigh1 1 fun _ _ => h).1) = [h] := by
    simp [eigh1, argsort1, takeIdx, List.range, List.range.loop]
  have hv : takeRows (n := 1) (eigh1 1 fun _ _ => h).2 (argsort1 (eigh1 1 fun _ _ => h).1) = 1 := by
    funext k j
    obtain rfl : k = 0 := Subsingleton.elim _ _
    obtain rfl : j = 0 := Subsingleton.elim _ _
    simp [takeRows, eigh1, argsort1, List.range, List.range.loop]
  unfold rfoRaw
  simp only [hl, hv]
  have e : ∀ j : Fin 1, (∑ i : Fin 1, (1 : Matrix (Fin 1) (Fin 1) ℝ) i j * g) = g := by
    intro j
    obtain rfl : j = 0 := Subsingleton.elim _ _
    simp
  simp only [e]
  by_cases hz : |h| + √(h ^ 2 + 4 * g ^ 2) = 0
  · rw [if_pos, if_pos hz]
    exact ⟨0, by simp [hz]⟩
  · rw [if_neg, if_neg hz]
    · congr 1
      funext i
      obtain rfl : i = 0 := Subsingleton.elim _ _
      simp
      field_simp
    · rintro ⟨j, hj⟩
      obtain rfl : j = 0 := Subsingleton.elim _ _
      simp at hj
      exact hz hj

/-- a linear function of one variable -/
noncomputable def exRfo : RArgs 1 :=
  { fun' := fun x => 2 * x 0, grad := fun _ _ => 2, xtol := 1e-4, ftol := 1e-4, maxiter := 1, dxMax := 1 }

/-- the 1 by 1 matrix with entry `h` -/
def mat1 (h : ℝ) : Matrix (Fin 1) (Fin 1) ℝ := fun _ _ => h

theorem norm2_one (a : ℝ) : norm2 (n := 1) (fun _ => a) = |a| := by
  unfold norm2
  simp [Real.sqrt_sq_eq_abs]

/-- **"At most `maxiter` iterations" does not hold:** with `maxiter = 1` two steps are made, for the linear function `2 x`. -/
theorem c45_one_more : ∃ st, RfoState eigh1 argsort1 exRfo (fun _ => 0) (some (mat1 3)) 2 st ∧ exRfo.maxiter = 1 ∧
    st.x = (fun _ => 3 / 2) ∧ st.ret = some "iter" := by
  have s5 : √((3 : ℝ) ^ 2 + 4 * 2 ^ 2) = 5 := by
    rw [show (3 : ℝ) ^ 2 + 4 * 2 ^ 2 = 5 ^ 2 by norm_num]; exact Real.sqrt_sq (by norm_num)
  have s4 : √((0 : ℝ) ^ 2 + 4 * 2 ^ 2) = 4 := by
    rw [show (0 : ℝ) ^ 2 + 4 * 2 ^ 2 = 4 ^ 2 by norm_num]; exact Real.sqrt_sq (by norm_num)
  have r1 : rfoRaw (n := 1) eigh1 argsort1 (mat1 3) (fun _ => 2) = some fun _ => 1 / 2 := by
    unfold mat1; rw [raw1, s5, if_neg (by norm_num)]; norm_num
  have r2 : rfoRaw (n := 1) eigh1 argsort1 (mat1 0) (fun _ => 2) = some fun _ => 1 := by
    unfold mat1; rw [raw1, s4, if_neg (by norm_num)]; norm_num
  have c1 : rfoClip (n := 1) 1 (fun _ => 1 / 2) = fun _ => 1 / 2 := by
    funext i; simp only [rfoClip, norm2_one]; norm_num
  have c2 : rfoClip (n := 1) 1 (fun _ => 1) = fun _ => 1 := by
    funext i; simp only [rfoClip, norm2_one]; norm_num
  let st1 : RState 1 := ⟨1, fun _ => 1 / 2, 1, fun _ => 2, some (mat1 0), none⟩
  have h1 : rfoStep eigh1 argsort1 exRfo (rfoInit exRfo (fun _ => 0) (some (mat1 3))) = .go st1 := by
    unfold rfoStep
    simp only [rfoInit, Option.getD_some, exRfo]
    rw [r1]
    simp only [c1]
    have hu : rfoUpdate (n := 1) (mat1 3) (fun _ => 1 / 2) (fun _ => 2 - 2) = some (mat1 (-3)) := by
      unfold rfoUpdate inner' mat1
      simp only [Fin.sum_univ_one]
      rw [if_neg (by norm_num)]
      norm_num
    have hr : rfoRet (n := 1) exRfo 1 none (fun _ => 0) (fun _ => 1 / 2) 0 1 = none := by
      unfold rfoRet
      simp only [exRfo, norm2_one]
      norm_num
    simp only [exRfo] at hr
    have hh : Option.map (fun (d : Matrix (Fin 1) (Fin 1) ℝ) i j => mat1 3 i j + d i j) (some (mat1 (-3))) = some (mat1 0) := by
      refine congrArg some ?_
      funext i j
      simp [mat1]
    rw [hu]
    simp only [RNext.go.injEq, RState.mk.injEq, st1]
    refine ⟨trivial, by norm_num, by norm_num, by norm_num, hh, ?_⟩
    refine Eq.trans ?_ hr
    norm_num
  have h2 : ∃ st, rfoStep eigh1 argsort1 exRfo st1 = .go st ∧ st.x = (fun _ => 3 / 2) ∧ st.ret = some "iter" := by
    refine ⟨_, by
      unfold rfoStep
      simp only [st1, exRfo]
      rw [r2], ?_, ?_⟩
    · simp only [c2]; norm_num
    · simp only [rfoRet]
      rw [if_pos (by norm_num)]
  obtain ⟨st, hs, hx, hr⟩ := h2
  exact ⟨st, .succ (.succ (.zero _) h1) hs, rfl, hx, hr⟩

/-- a sorting that leaves sorted values in place -/
theorem exists_keepsSorted : ∃ argsort, IsArgsort argsort ∧ KeepsSorted argsort := by
  classical
  obtain ⟨a, ha⟩ := exists_isArgsort
  refine ⟨fun l => if l.Pairwise (· ≤ ·) then List.range l.length else a l, fun l => ?_, fun l hl => if_pos hl⟩
  simp only
  split
  · rename_i hl
    refine ⟨List.Perm.refl _, ?_⟩
    have : (List.range l.length).map (fun i => l.getD i 0) = l :=
      List.ext_getElem (by simp) fun i h1 h2 => by
        rw [List.getElem_map, List.getElem_range, List.getD_eq_getElem]
    rw [this]
    exact hl
  · exact ha l

/-- a saddle in the plane -/
noncomputable def exSaddle : RArgs 2 :=
  ⟨fun x => x 0 ^ 2 - x 1 ^ 2, fun x => ![2 * x 0, -(2 * x 1)], 1e-4, 1e-4, 10, 1⟩

/-- the hypotheses of `c45_fixed` and of `c75_direction` are met: the saddle `x² - y²` at the origin -/
example : ∃ (eigh : Eigh) (argsort : Argsort), IsEigh eigh ∧ KeepsSorted argsort ∧
    rfoRun eigh argsort exSaddle 2 (rfoInit exSaddle ![0, 0] (some !![2, 0; 0, -2])) =
      some (some (![0, 0], 0, "ftol")) := by
  obtain ⟨eigh, h1⟩ := exists_isEigh
  obtain ⟨argsort, -, h2⟩ := exists_keepsSorted
  refine ⟨eigh, argsort, h1, h2, ?_⟩
  rw [c45_fixed eigh h1 argsort h2]
  · simp [exSaddle]
  · norm_num [exSaddle]
  · funext i; fin_cases i <;> simp [exSaddle]
  · intro i j; fin_cases i <;> fin_cases j <;> simp
  · intro w hw
    have h0 := hw 0
    have h1 := hw 1
    simp [Fin.sum_univ_two] at h0 h1
    funext i; fin_cases i <;> simp [h0, h1]

end Electrode
