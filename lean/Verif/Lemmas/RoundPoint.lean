import Verif.Lemmas.Rounding
import Mathlib.Tactic.IntervalCases

/-
Rounding errors of the potential of points.
-/
namespace Electrode
namespace Rounding
open Spec Real

/-- an error that is small compared with the value -/
theorem App.rel {b : ℝ} (hb : 1 ≤ b) {k : Nat} {x y m : ℝ} (h : App b k x y m) (c : Nat) (hm : m ≤ c * |y|)
    (hc : 2 * c * (b ^ k - 1) ≤ 1) : Rel b (2 * c * k) x y := by
  have hε : 0 ≤ b ^ k - 1 := by linarith [pow_ge hb k]
  by_cases hy : y = 0
  · subst hy
    have h0 : m = 0 := le_antisymm (by simpa using hm) h.nonneg
    have : x = 0 := by simpa [h0] using h.err
    subst this
    exact Rel.refl hb 0 _
  · have h2 : |x / y - 1| ≤ c * (b ^ k - 1) := by
      rw [show x / y - 1 = (x - y) / y by field_simp, abs_div, div_le_iff₀ (abs_pos.2 hy)]
      calc |x - y| ≤ (b ^ k - 1) * m := h.err
        _ ≤ (b ^ k - 1) * (c * |y|) := by gcongr
        _ = _ := by ring
    rw [abs_le] at h2
    have hbern : 1 + 2 * c * (b ^ k - 1) ≤ b ^ (2 * c * k) := by
      have := one_add_mul_le_pow (a := b ^ k - 1) (by linarith) (2 * c)
      rw [add_sub_cancel, ← pow_mul, mul_comm k] at this
      push_cast at this
      linarith
    refine ⟨x / y, by field_simp, ?_, ?_⟩
    · have hp : 0 ≤ x / y := by nlinarith
      calc (1 : ℝ) ≤ (1 - c * (b ^ k - 1)) * (1 + 2 * c * (b ^ k - 1)) := by
            have : (0 : ℝ) ≤ c * (b ^ k - 1) := by positivity
            nlinarith
        _ ≤ (x / y) * (1 + 2 * c * (b ^ k - 1)) := by
            have : (0 : ℝ) ≤ c * (b ^ k - 1) := by positivity
            gcongr
            linarith
        _ ≤ _ := by gcongr
    · have : (0 : ℝ) ≤ c * (b ^ k - 1) := by positivity
      linarith

/-- rows that agree up to rounding -/
structure RowApp (b : ℝ) (k : Nat) (m : ℝ) (r s : List ℝ) : Prop where
  len : r.length = s.length
  app : ∀ i, App b k (r.getD i 0) (s.getD i 0) m

theorem getD_mapIdx (f : Nat → ℝ → ℝ) (r : List ℝ) (i : Nat) :
    (r.mapIdx f).getD i 0 = if i < r.length then f i (r.getD i 0) else 0 := by
  by_cases h : i < r.length
  · simp [h, List.getD_eq_getElem?_getD]
  · simp [h, List.getD_eq_getElem?_getD]

section
variable {o : FloatOps} {u : ℝ} (ho : Accurate o u) {b : ℝ} (hb : (1 - u)⁻¹ ≤ b)
include ho hb

/-- adding approximate increments -/
theorem RowApp.step {k : Nat} {m n : ℝ} {r s t t' : List ℝ} (h : RowApp b k m r s) (hn : 0 ≤ n) (hl : t.length = t'.length)
    (ht : ∀ i < t.length, App b k (t.getD i 0) (t'.getD i 0) n) :
    RowApp b (k + 1) (m + n) (flAddRow o r t) (addRow s t') := by
  have h1 : 1 ≤ b := (hbase ho).trans hb
  refine ⟨by simp [flAddRow, addRow, h.len], fun i => ?_⟩
  rw [flAddRow, addRow, getD_mapIdx, getD_mapIdx, ← h.len]
  by_cases hi : i < r.length
  · rw [if_pos hi, if_pos hi]
    by_cases hit : i < t.length
    · have e : t[i]? = some (t.getD i 0) := by simp [List.getD_eq_getElem?_getD, hit]
      rw [e]
      exact ((h.app i).add h1 (ht i hit)).round h1 ((rel_add ho _ _).base (hbase ho) hb)
    · have e : t[i]? = none := by simpa using not_lt.1 hit
      have e' : t'.getD i 0 = 0 := by
        rw [List.getD_eq_getElem?_getD, List.getElem?_eq_none (by omega)]; rfl
      rw [e, e', add_zero]
      exact (h.app i).mono h1 (Nat.le_succ k) (by linarith)
  · rw [if_neg hi, if_neg hi]
    exact (Rel.refl h1 0 _).app h1 (by simpa using add_nonneg ((abs_nonneg _).trans (h.app 0).size) hn)

end

/-- a fold of approximate increments -/
theorem RowApp.foldl {α : Type*} {b : ℝ} (hb : 1 ≤ b) {K : Nat} (l : List α) (f g : List ℝ → α → List ℝ) (m : α → ℝ)
    (hm : ∀ a ∈ l, 0 ≤ m a)
    (hstep : ∀ a ∈ l, ∀ k M r s, K ≤ k → RowApp b k M r s → RowApp b (k + 1) (M + m a) (f r a) (g s a))
    {k : Nat} (hk : K ≤ k) {M : ℝ} {r s : List ℝ} (h : RowApp b k M r s) :
    RowApp b (k + l.length) (M + (l.map m).sum) (l.foldl f r) (l.foldl g s) := by
  induction l generalizing k M r s with
  | nil => simpa using h
  | cons a l ih =>
    have := ih (fun a ha => hm a (List.mem_cons_of_mem _ ha)) (fun a ha => hstep a (List.mem_cons_of_mem _ ha))
      (Nat.le_succ_of_le hk) (hstep a List.mem_cons_self k M r s hk h)
    simp only [List.foldl_cons, List.length_cons, List.map_cons, List.sum_cons]
    convert this using 1
    · omega
    · ring

/-- a fold of steps with several roundings each -/
theorem RowApp.foldl' {α : Type*} {b : ℝ} {K c : Nat} (l : List α) (f g : List ℝ → α → List ℝ) (m : α → ℝ)
    (hstep : ∀ a ∈ l, ∀ k M r s, K ≤ k → RowApp b k M r s → RowApp b (k + c) (M + m a) (f r a) (g s a))
    {k : Nat} (hk : K ≤ k) {M : ℝ} {r s : List ℝ} (h : RowApp b k M r s) :
    RowApp b (k + l.length * c) (M + (l.map m).sum) (l.foldl f r) (l.foldl g s) := by
  induction l generalizing k M r s with
  | nil => simpa using h
  | cons a l ih =>
    have := ih (fun a ha => hstep a (List.mem_cons_of_mem _ ha)) (by omega) (hstep a List.mem_cons_self k M r s hk h)
    simp only [List.foldl_cons, List.length_cons, List.map_cons, List.sum_cons]
    convert this using 1
    · ring
    · ring

/-- one position of a loop over all positions -/
theorem foldl_zipWith {α β γ : Type*} (l : List α) (x : List β) (f : α → β → γ → γ) (out : List γ) (j : Nat) {p : β} {r : γ}
    (hp : x[j]? = some p) (hr : out[j]? = some r) :
    (l.foldl (fun out a => List.zipWith (f a) x out) out)[j]? = some (l.foldl (fun r a => f a p r) r) := by
  induction l generalizing out r with
  | nil => simpa using hr
  | cons a l ih =>
    simp only [List.foldl_cons]
    refine ih _ ?_
    rw [List.getElem?_zipWith, hp, hr]

/-- how many roundings the variables of `point_potential_expr` carry -/
def pointCost (kz kr : Nat) : Nat → Nat
  | 0 => 1 | 1 => 1 | 2 => kz | 3 => kr | _ => 0

/-- the coefficients of `point_potential_expr`: the largest sum of absolute values in a component, with the factor of `n` -/
def pointWt : Nat → Nat
  | 0 => 1 | 1 => 4 | 2 => 18 | 3 => 150 | 4 => 1620 | 5 => 17100 | _ => 0

/-- factor of `n` -/
def normFactor : Nat → Nat
  | 0 => 1 | 1 => 1 | 2 => 3 | 3 => 3 | 4 => 15 | 5 => 45 | _ => 0

theorem pointNorm_eq (d : Nat) (hd : d ≤ 5) (r a : ℝ) : pointNorm d r a = a * (normFactor d / (2 * π * r ^ (2 * d + 3))) := by
  interval_cases d <;> simp only [pointNorm, normFactor] <;> push_cast <;> ring

section
variable {o : FloatOps} {u : ℝ} (ho : Accurate o u)
include ho

theorem flPointNorm_rel (d : Nat) (hd : d ≤ 5) {kr ka : Nat} {r r' a a' : ℝ} (hr' : r' ≠ 0) (hr : Rel (1 - u)⁻¹ kr r r')
    (ha : Rel (1 - u)⁻¹ ka a a') : Rel (1 - u)⁻¹ (ka + (2 * d + 3) * kr + 6) (flPointNorm o d r a) (pointNorm d r' a') := by
  have hb := hbase ho
  have hπ : Rel (1 - u)⁻¹ 2 (o.mul 2 o.pi) (2 * π) := (rel_mul ho _ _).trans hb ((Rel.refl hb 2 0).mul hb (rel_pi ho))
  have hdiv : ∀ c : ℝ, c ≠ 0 → Rel (1 - u)⁻¹ 3 (o.div (o.mul 2 o.pi) c) (2 * π / c) := fun c hc =>
    (rel_div ho _ hc).trans hb (hπ.div hb (Rel.refl hb c 0))
  have hpow : ∀ m, Rel (1 - u)⁻¹ (1 + m * kr) (o.pow r m) (r' ^ m) := fun m => (rel_pow ho _ _).trans hb (hr.pow hb m)
  have key : ∀ (w w' : ℝ) (m : Nat), w' ≠ 0 → Rel (1 - u)⁻¹ 3 w w' →
      Rel (1 - u)⁻¹ (ka + m * kr + 6) (o.div a (o.mul w (o.pow r m))) (a' / (w' * r' ^ m)) := by
    intro w w' m hw' hw
    have h1 := (rel_mul ho w (o.pow r m)).trans hb (hw.mul hb (hpow m))
    have h2 : o.mul w (o.pow r m) ≠ 0 := h1.ne_zero hb (mul_ne_zero hw' (pow_ne_zero _ hr'))
    exact ((rel_div ho a h2).trans hb (ha.div hb h1)).mono hb (by omega)
  have hpi := Real.pi_ne_zero
  interval_cases d
  · exact key _ _ 3 (by positivity) (hπ.mono hb (by norm_num))
  · exact key _ _ 5 (by positivity) (hπ.mono hb (by norm_num))
  · exact key _ _ 7 (by positivity) (hdiv _ (by norm_num))
  · exact key _ _ 9 (by positivity) (hdiv _ (by norm_num))
  · exact key _ _ 11 (by positivity) (hdiv _ (by norm_num))
  · exact key _ _ 13 (by positivity) (hdiv _ (by norm_num))

/-- the distance -/
theorem dist_rel {k : Nat} {x y z x' y' z' : ℝ} (hx : Rel (1 - u)⁻¹ k x x') (hy : Rel (1 - u)⁻¹ k y y')
    (hz : Rel (1 - u)⁻¹ k z z') :
    Rel (1 - u)⁻¹ (k + 3) (o.sqrt (o.add (o.add (o.pow x 2) (o.pow y 2)) (o.pow z 2))) √(x' ^ 2 + y' ^ 2 + z' ^ 2) := by
  have hb := hbase ho
  have hsq : ∀ {t t' : ℝ}, Rel (1 - u)⁻¹ k t t' → Rel (1 - u)⁻¹ (1 + 2 * k) (o.pow t 2) (t' ^ 2) := fun h =>
    (rel_pow ho _ _).trans hb (h.pow hb 2)
  have h1 := (rel_add ho _ _).trans hb ((hsq hx).add hb (sq_nonneg _) (sq_nonneg _) (hsq hy))
  have h2 := (rel_add ho _ _).trans hb (h1.add hb (add_nonneg (sq_nonneg _) (sq_nonneg _)) (sq_nonneg _) ((hsq hz).mono hb (by omega)))
  have h0 : 0 ≤ x' ^ 2 + y' ^ 2 + z' ^ 2 := by positivity
  have h3 := (h2.mono hb (show _ ≤ 2 * (k + 2) by omega)).sqrt hb h0
  exact ((rel_sqrt ho (h2.nonneg hb h0)).trans hb h3).mono hb (by omega)

/-- one increment -/
theorem flPointTerm_app (d : Nat) (hd : d ≤ 5) {kz K : Nat} (hkz : 1 ≤ kz) {x y z x' y' z' a a' : ℝ} (hx : Rel (1 - u)⁻¹ 1 x x')
    (hy : Rel (1 - u)⁻¹ 1 y y') (hz : Rel (1 - u)⁻¹ kz z z') (ha : Rel (1 - u)⁻¹ 1 a a') (hz' : z' ≠ 0)
    (hK : ∀ e ∈ pointNum d, cost (pointCost kz (kz + 3)) e + (2 * d + 3) * (kz + 3) + 8 ≤ K) (i : Nat) (hi : i < (pointNum d).length) :
    App (1 - u)⁻¹ K ((flPointTerm o d x y z (o.sqrt (o.add (o.add (o.pow x 2) (o.pow y 2)) (o.pow z 2))) a).getD i 0)
      ((pointTerm d x' y' z' √(x' ^ 2 + y' ^ 2 + z' ^ 2) a').getD i 0)
      (pointWt d * |a'| / (2 * π * √(x' ^ 2 + y' ^ 2 + z' ^ 2) ^ (d + 2))) := by
  have hb := hbase ho
  set r := o.sqrt (o.add (o.add (o.pow x 2) (o.pow y 2)) (o.pow z 2)) with hr
  set r' := √(x' ^ 2 + y' ^ 2 + z' ^ 2) with hr'
  have hpos : 0 < x' ^ 2 + y' ^ 2 + z' ^ 2 := by positivity
  have hr0 : 0 < r' := Real.sqrt_pos.2 hpos
  have hrr : Rel (1 - u)⁻¹ (kz + 3) r r' := dist_rel ho (hx.mono hb hkz) (hy.mono hb hkz) hz
  have hn := flPointNorm_rel ho d hd hr0.ne' hrr ha
  have le : ∀ {t : ℝ}, t ^ 2 ≤ x' ^ 2 + y' ^ 2 + z' ^ 2 → |t| ≤ r' := fun h => Real.abs_le_sqrt h
  have henv : ∀ j, App (1 - u)⁻¹ (pointCost kz (kz + 3) j) (pointEnv x y z r j) (pointEnv x' y' z' r' j) r' := by
    intro j
    match j with
    | 0 => exact hx.app hb (le (by nlinarith [sq_nonneg y', sq_nonneg z']))
    | 1 => exact hy.app hb (le (by nlinarith [sq_nonneg x', sq_nonneg z']))
    | 2 => exact hz.app hb (le (by nlinarith [sq_nonneg y', sq_nonneg x']))
    | 3 => exact hrr.app hb (by simp [abs_of_pos hr0])
    | n + 4 => exact (Rel.refl hb 0 _).app hb (by simpa using hr0.le)
  have hmem : (pointNum d)[i] ∈ pointNum d := List.getElem_mem hi
  set e := (pointNum d)[i] with he
  have hw : e.homDeg (fun _ => 1) = some (d + 1) ∧ wt e * normFactor d ≤ pointWt d := by
    have : ∀ d ≤ 5, ∀ e ∈ pointNum d, e.homDeg (fun _ => 1) = some (d + 1) ∧ wt e * normFactor d ≤ pointWt d := by decide +kernel
    exact this d hd e hmem
  have h1 := ((flEval_app ho le_rfl henv e).mul hb (hn.app hb le_rfl)).round hb (rel_mul ho _ _)
  rw [absEval_hom r' e (d + 1) hw.1] at h1
  have e1 : (flPointTerm o d x y z r a).getD i 0 = o.mul (e.flEval o (pointEnv x y z r)) (flPointNorm o d r a) := by
    simp [flPointTerm, List.getD_eq_getElem?_getD, hi, he]
  have e2 : (pointTerm d x' y' z' r' a').getD i 0 = e.eval (pointEnv x' y' z' r') * pointNorm d r' a' := by
    simp [pointTerm, List.getD_eq_getElem?_getD, hi, he]
  rw [e1, e2]
  refine h1.mono hb (by have := hK e hmem; omega) ?_
  rw [pointNorm_eq d hd, abs_mul, abs_of_nonneg (by positivity : 0 ≤ (normFactor d : ℝ) / (2 * π * r' ^ (2 * d + 3)))]
  have h3 : ((wt e : ℝ) * normFactor d) ≤ pointWt d := by exact_mod_cast hw.2
  calc wt e * r' ^ (d + 1) * (|a'| * (normFactor d / (2 * π * r' ^ (2 * d + 3))))
      = (wt e * normFactor d) * |a'| / (2 * π * r' ^ (d + 2)) := by
        rw [show 2 * d + 3 = (d + 1) + (d + 2) by ring, pow_add r' (d + 1) (d + 2)]
        field_simp
    _ ≤ _ := by gcongr

end
end Rounding
end Electrode
