import Verif.Props.EigenC4

/-! C112, continued: where `superimposition_matrix` fails. -/

namespace Electrode

open Matrix Spec

theorem adjCol_dots (M : Sym4) :
    quatDot (eigRow0 M) = adjCol (symMat M) 0 ⬝ᵥ adjCol (symMat M) 0 ∧ quatDot (eigRow1 M) = adjCol (symMat M) 1 ⬝ᵥ adjCol (symMat M) 1 ∧
      quatDot (eigRow2 M) = adjCol (symMat M) 2 ⬝ᵥ adjCol (symMat M) 2 ∧ quatDot (eigRow3 M) = adjCol (symMat M) 3 ⬝ᵥ adjCol (symMat M) 3 := by
  refine ⟨?_, ?_, ?_, ?_⟩
  · rw [quatDot_lastFirst, eigRow0_adj]; rfl
  · rw [quatDot_lastFirst, eigRow1_adj]; rfl
  · rw [quatDot_lastFirst, eigRow2_adj]; rfl
  · rw [quatDot_lastFirst, eigRow3_adj]; rfl

theorem eigenvector_none_of {M : Sym4} (h0 : quatDot (eigRow0 M) < eigEps M) (h1 : quatDot (eigRow1 M) < eigEps M)
    (h2 : quatDot (eigRow2 M) < eigEps M) (h3 : quatDot (eigRow3 M) < eigEps M) : eigenvector M = none := by
  obtain ⟨d0, d1, d2, d3⟩ := adjCol_dots M
  rcases eigenvector_cases M with ⟨h, -⟩ | ⟨v, i, -, h, -⟩
  · exact h
  · exfalso
    rw [d0] at h0
    rw [d1] at h1
    rw [d2] at h2
    rw [d3] at h3
    fin_cases i <;> simp only [Fin.zero_eta, Fin.mk_one, Fin.reduceFinMk] at h <;> linarith

theorem eigenvector_some_of {M : Sym4} {i : Fin 4} (h : eigEps M ≤ adjCol (symMat M) i ⬝ᵥ adjCol (symMat M) i) : ∃ v, eigenvector M = some v := by
  rcases eigenvector_cases M with ⟨-, h'⟩ | ⟨v, -, h', -, -⟩
  · have := h' i
    linarith
  · exact ⟨v, h'⟩

theorem search_good {T : Tri4} {l lo : ℝ} (hl : IsTop (triMat T) l) (hlo : lo ≤ l) (g0 : GoodPivots T ((l + lo) / 2))
    (g1 : ∀ x, (l + (l + lo) / 2) / 2 ≤ x → GoodPivots T x) (fuel : Nat) : ∀ x ∈ bisPoints T fuel lo l, GoodPivots T x := by
  have hpos : (0:ℝ) < 1 / 10 ^ 18 := by positivity
  have hc : ∀ x, x < l → GoodPivots T x → pivotCount T x < 4 := by
    intro x hx hg
    by_contra h
    have := top_lt_of_count hl hg ((pivotCount_four _ _).1 h)
    linarith
  rcases fuel with _ | fuel
  · simp [bisPoints]
  rw [bisPoints]
  split_ifs with h1 h2
  · simp
  · intro x hx
    rcases List.mem_cons.1 hx with rfl | hx
    · exact g0
    rcases fuel with _ | fuel
    · simp [bisPoints] at hx
    rw [bisPoints] at hx
    split_ifs at hx with h3 h4
    · simp at hx
    · rcases List.mem_cons.1 hx with rfl | hx
      · exact g1 _ le_rfl
      · refine g1 _ ?_
        have := (bisPoints_between T fuel (by linarith) x hx).1
        linarith
    · exact absurd (hc _ (by linarith) (g1 _ le_rfl)) h4
  · exact absurd (hc _ (by linarith) g0) h2

/-! ### six points -/

namespace Spec

/-- the six points at the distance `d` from the origin on the axes -/
def sixPoints (d : ℝ) : Fin 3 → Fin 6 → ℝ := ![![d, -d, 0, 0, 0, 0], ![0, 0, d, -d, 0, 0], ![0, 0, 0, 0, d, -d]]

/-- the rotation about the third axis by a right angle -/
def quarterTurn : Matrix (Fin 4) (Fin 4) ℝ := !![0, -1, 0, 0; 1, 0, 0, 0; 0, 0, 1, 0; 0, 0, 0, 1]

/-- the six points after the rotation -/
def sixTurned (d : ℝ) : Fin 3 → Fin 6 → ℝ := fun a j => image (d := 3) quarterTurn (fun b => sixPoints d b j) a

end Spec

theorem sixTurned_eq (d : ℝ) : sixTurned d = ![![0, 0, -d, d, 0, 0], ![d, -d, 0, 0, 0, 0], ![0, 0, 0, 0, d, -d]] := by
  funext a j
  fin_cases a <;> fin_cases j <;> simp [sixTurned, image, quarterTurn, sixPoints, Fin.sum_univ_three]

theorem quarterTurn_similar : IsSimilarity (d := 3) 1 quarterTurn := by
  refine ⟨fun b => by fin_cases b <;> rfl, !![0, -1, 0; 1, 0, 0; 0, 0, 1], ⟨?_, ?_⟩, fun a b => ?_⟩
  · ext a b
    fin_cases a <;> fin_cases b <;> simp [Matrix.mul_apply, Fin.sum_univ_three]
  · simp [det_fin_three]
  · fin_cases a <;> fin_cases b <;> simp [quarterTurn]

theorem six_horn (d : ℝ) : hornC (sixPoints d) (sixTurned d) =
    ⟨2 * d ^ 2, 0, 0, 2 * (2 * d ^ 2), -(2 * d ^ 2), 0, 0, -(2 * d ^ 2), 0, 2 * d ^ 2⟩ := by
  have m0 : cMean (sixPoints d) = 0 := by
    funext a
    fin_cases a <;> simp [cMean, sixPoints, Fin.sum_univ_succ]
  have m1 : cMean (sixTurned d) = 0 := by
    rw [sixTurned_eq]
    funext a
    fin_cases a <;> simp [cMean, Fin.sum_univ_succ]
  simp only [hornC, m0, m1, Pi.zero_apply, sub_zero]
  simp only [sixTurned_eq, sixPoints, Fin.sum_univ_succ]
  simp
  refine ⟨?_, ?_, ?_, ?_⟩ <;> ring

theorem six_tri {s : ℝ} (hs : 1 ≤ s) : tridiagonalize ⟨s, 0, 0, 2 * s, -s, 0, 0, -s, 0, s⟩ = ⟨s, s, -s, -s, -(2 * s), 0, 0⟩ := by
  have e1 : triFirst ⟨s, 0, 0, 2 * s, -s, 0, 0, -s, 0, s⟩ = ⟨s, -(2 * s), 0, 2 * s, s, 0, 0, -s, 0, -s⟩ := by
    have hn : √((0:ℝ) * 0 + (0 * 0 + 2 * s * (2 * s))) = 2 * s := by
      rw [show (0:ℝ) * 0 + (0 * 0 + 2 * s * (2 * s)) = (2 * s) ^ 2 by ring, Real.sqrt_sq (by linarith)]
    have ht : tEps < 2 * s := by
      have : tEps < 1 := by norm_num [tEps]
      linarith
    unfold triFirst
    simp only [hn, if_pos ht, lt_irrefl, if_false]
    have hs0 : s ≠ 0 := by linarith
    simp only [Sym4.mk.injEq, true_and]
    refine ⟨?_, ?_, ?_, ?_, ?_, ?_⟩ <;> field_simp <;> ring
  have e2 : triSecond ⟨s, -(2 * s), 0, 2 * s, s, 0, 0, -s, 0, -s⟩ = ⟨s, -(2 * s), 0, 2 * s, s, 0, 0, -s, 0, -s⟩ := by
    unfold triSecond
    rw [if_neg]
    simp [tEps_pos.le]
  simp only [tridiagonalize, e1, e2]

theorem six_top {s : ℝ} (hs : 1 ≤ s) : IsTop (triMat ⟨s, s, -s, -s, -(2 * s), 0, 0⟩) (3 * s) := by
  refine ⟨⟨![1, -1, 0, 0], fun h => by simpa using congrFun h 0, ?_⟩, fun m v hv he => ?_⟩
  · ext i
    fin_cases i <;> simp [triMat, mulVec, dotProduct, Fin.sum_univ_four] <;> ring
  · have hp := dot_self_pos hv
    have e : qform (triMat ⟨s, s, -s, -s, -(2 * s), 0, 0⟩) v = m * (v ⬝ᵥ v) := by rw [qform, he, dotProduct_smul, smul_eq_mul]
    rw [qform_tri] at e
    rw [dot_four] at e hp
    simp only at e
    have h1 := mul_nonneg (by linarith : 0 ≤ s) (sq_nonneg (v 0 + v 1))
    have h2 := mul_nonneg (by linarith : 0 ≤ s) (sq_nonneg (v 2))
    have h3 := mul_nonneg (by linarith : 0 ≤ s) (sq_nonneg (v 3))
    have h4 : m * (v 0 ^ 2 + v 1 ^ 2 + v 2 ^ 2 + v 3 ^ 2) ≤ 3 * s * (v 0 ^ 2 + v 1 ^ 2 + v 2 ^ 2 + v 3 ^ 2) := by nlinarith
    exact le_of_mul_le_mul_right h4 hp

theorem six_search {d : ℝ} (hd : 1 ≤ d) (fuel : Nat) : GoodSearch fuel (hornC (sixPoints d) (sixTurned d)) := by
  have hs : (1:ℝ) ≤ 2 * d ^ 2 := by nlinarith
  unfold GoodSearch
  rw [six_horn, six_tri hs]
  generalize 2 * d ^ 2 = s at *
  have hl : gershLower ⟨s, s, -s, -s, -(2 * s), 0, 0⟩ = -s := by
    have : |-(2 * s)| = 2 * s := by rw [abs_neg, abs_of_nonneg (by linarith)]
    simp only [gershLower, this, abs_zero, sub_zero]
    rw [show s - 2 * s = -s by ring]
    simp
  have hu : gershUpper ⟨s, s, -s, -s, -(2 * s), 0, 0⟩ = 3 * s := by
    have : |-(2 * s)| = 2 * s := by rw [abs_neg, abs_of_nonneg (by linarith)]
    simp only [gershUpper, this, abs_zero, add_zero]
    rw [show s + 2 * s = 3 * s by ring, max_self, max_eq_left (a := 3 * s) (b := -s) (by linarith), max_eq_left (a := 3 * s) (b := -s) (by linarith)]
  rw [hl, hu]
  refine search_good (six_top hs) (by linarith) ?_ ?_ fuel
  · refine ⟨?_, fun h => h.2.2 rfl, fun h => h.2.2 rfl⟩
    rintro ⟨-, h, -⟩
    simp only [piv, cons_val_zero] at h
    linarith
  · intro x hx
    refine ⟨?_, fun h => h.2.2 rfl, fun h => h.2.2 rfl⟩
    rintro ⟨h, -, -⟩
    simp only [piv, cons_val_zero] at h
    have : (1:ℝ) / 10 ^ 18 ≤ 1 := by norm_num
    linarith

theorem six_value {d : ℝ} (hd : 1 ≤ d) : ∃ N r, (∀ fuel ≥ N, maxEigen fuel (tridiagonalize (hornC (sixPoints d) (sixTurned d))) = some r) ∧
    |r - 3 * (2 * d ^ 2)| ≤ 1 / 10 ^ 18 / 2 := by
  have hs : (1:ℝ) ≤ 2 * d ^ 2 := by nlinarith
  obtain ⟨N, r, h⟩ := c112_terminates (tridiagonalize (hornC (sixPoints d) (sixTurned d)))
  refine ⟨N, r, h, ?_⟩
  have ht := six_top hs
  rw [← six_tri hs, ← six_horn] at ht
  exact c112_max_partial _ _ ht N r (h N le_rfl) (six_search hd N)

theorem six_rows (s p q : ℝ) :
    quatDot (eigRow0 ⟨-p, 0, 0, 2 * s, -q, 0, 0, -q, 0, -p⟩) = q ^ 4 * (p ^ 2 + 4 * s ^ 2) ∧
      quatDot (eigRow1 ⟨-p, 0, 0, 2 * s, -q, 0, 0, -q, 0, -p⟩) = q ^ 2 * (p ^ 2 - 4 * s ^ 2) ^ 2 ∧
      quatDot (eigRow2 ⟨-p, 0, 0, 2 * s, -q, 0, 0, -q, 0, -p⟩) = q ^ 2 * (p ^ 2 - 4 * s ^ 2) ^ 2 ∧
      quatDot (eigRow3 ⟨-p, 0, 0, 2 * s, -q, 0, 0, -q, 0, -p⟩) = q ^ 4 * (p ^ 2 + 4 * s ^ 2) := by
  refine ⟨?_, ?_, ?_, ?_⟩
  · simp only [quatDot, Fin.sum_univ_four, eigRow0, cons_val_zero, cons_val_one, cons_val]; ring
  · simp only [quatDot, Fin.sum_univ_four, eigRow1, cons_val_zero, cons_val_one, cons_val]; ring
  · simp only [quatDot, Fin.sum_univ_four, eigRow2, cons_val_zero, cons_val_one, cons_val]; ring
  · simp only [quatDot, Fin.sum_univ_four, eigRow3, cons_val_zero, cons_val_one, cons_val]; ring

theorem six_shift (s r : ℝ) : Sym4.shift ⟨s, 0, 0, 2 * s, -s, 0, 0, -s, 0, s⟩ r = ⟨-(r - s), 0, 0, 2 * s, -(r + s), 0, 0, -(r + s), 0, -(r - s)⟩ := by
  simp only [Sym4.shift, Sym4.mk.injEq, true_and]
  refine ⟨?_, ?_, ?_, ?_⟩ <;> ring

theorem six_none {s r : ℝ} (hs : 2 * 10 ^ 6 ≤ s) (hr : |r - 3 * s| ≤ 1 / 10 ^ 18 / 2) :
    eigenvector (Sym4.shift ⟨s, 0, 0, 2 * s, -s, 0, 0, -s, 0, s⟩ r) = none := by
  rw [six_shift]
  obtain ⟨p, hp⟩ : ∃ p, p = r - s := ⟨_, rfl⟩
  obtain ⟨q, hq⟩ : ∃ q, q = r + s := ⟨_, rfl⟩
  rw [← hp, ← hq]
  obtain ⟨a1, a2⟩ := abs_le.1 hr
  have hsm : (1:ℝ) / 10 ^ 18 / 2 ≤ 1 := by norm_num
  have hp1 : 2 * s - 1 ≤ p := by linarith
  have hp2 : p ≤ 2 * s + 1 := by linarith
  have hq1 : 4 * s - 1 ≤ q := by linarith
  have he : (p ^ 2 * q ^ 2 * (1 / 10 ^ 6)) ^ 2 ≤ eigEps ⟨-p, 0, 0, 2 * s, -q, 0, 0, -q, 0, -p⟩ := by
    unfold eigEps
    simp only
    rw [show (-p * -q * -q * -p - 0 * 0 * 0 * 0) * (1 / 10 ^ 6) = p ^ 2 * q ^ 2 * (1 / 10 ^ 6) by ring]
    split_ifs with h
    · rw [pow_two]; exact h.le
    · rw [pow_two]
  have hq4 : 0 < q ^ 4 := pow_pos (by linarith) 4
  have hq2 : 0 < q ^ 2 := pow_pos (by linarith) 2
  have hps : 10 ^ 6 ≤ p := by linarith
  have hqs : 10 ^ 6 ≤ q := by linarith
  have k0 : q ^ 4 * (p ^ 2 + 4 * s ^ 2) < (p ^ 2 * q ^ 2 * (1 / 10 ^ 6)) ^ 2 := by
    have : p ^ 2 + 4 * s ^ 2 < p ^ 4 * (1 / 10 ^ 12) := by
      have h1 : 4 * s ^ 2 ≤ 2 * p ^ 2 := by nlinarith
      have h2 : 4 * 10 ^ 12 ≤ p ^ 2 * (10 / 9) := by nlinarith
      nlinarith
    calc q ^ 4 * (p ^ 2 + 4 * s ^ 2) < q ^ 4 * (p ^ 4 * (1 / 10 ^ 12)) := mul_lt_mul_of_pos_left this hq4
      _ = _ := by ring
  have k1 : q ^ 2 * (p ^ 2 - 4 * s ^ 2) ^ 2 < (p ^ 2 * q ^ 2 * (1 / 10 ^ 6)) ^ 2 := by
    have h1 : |p ^ 2 - 4 * s ^ 2| ≤ 3 * p := by
      rw [abs_le]
      constructor <;> nlinarith
    have h2 : 3 * p < p ^ 2 * q * (1 / 10 ^ 6) := by nlinarith
    have h3 : (p ^ 2 - 4 * s ^ 2) ^ 2 < (p ^ 2 * q * (1 / 10 ^ 6)) ^ 2 := by
      rw [← sq_abs]
      exact pow_lt_pow_left₀ (h1.trans_lt h2) (abs_nonneg _) two_ne_zero
    calc q ^ 2 * (p ^ 2 - 4 * s ^ 2) ^ 2 < q ^ 2 * (p ^ 2 * q * (1 / 10 ^ 6)) ^ 2 := mul_lt_mul_of_pos_left h3 hq2
      _ = _ := by ring
  obtain ⟨r0, r1, r2, r3⟩ := six_rows s p q
  exact eigenvector_none_of (r0 ▸ k0.trans_le he) (r1 ▸ k1.trans_le he) (r2 ▸ k1.trans_le he) (r3 ▸ k0.trans_le he)

/-- **C112**: the compiled `superimposition_matrix` fails for the six points on the axes at a distance of 1000 or more and their images under
a rotation by a right angle, which the Python function finds. -/
theorem c112_large (d : ℝ) (hd : 1000 ≤ d) (scaling usesvd : Bool) :
    (∃ N, ∀ fuel ≥ N, cSuperimposition (d := 3 + 0) (d' := 3 + 0) fuel (sixPoints d) (sixTurned d) scaling usesvd = some (.error .valueError)) ∧
      ∀ lib, IsRegLib lib → ∃ M, superimposition lib (e := 0) (e' := 0) (sixPoints d) (sixTurned d) false usesvd = .ok (some M) ∧
        ∀ j, image (d := 3) M (fun b => sixPoints d b j) = fun a => sixTurned d a j := by
  constructor
  · obtain ⟨N, r, h, hr⟩ := six_value (by linarith : 1 ≤ d)
    refine ⟨N, fun fuel hf => ?_⟩
    have hs : (2:ℝ) * 10 ^ 6 ≤ 2 * d ^ 2 := by nlinarith
    have : topVector fuel (hornC (sixPoints d) (sixTurned d)) = some none := by
      rw [topVector, h fuel hf, six_horn]
      simp only [Option.map_some]
      rw [six_none hs hr]
    rw [cSup_eq (e := 0) fuel (sixPoints d) (sixTurned d), cSupCore]
    change Option.map _ (topVector fuel (hornC (sixPoints d) (sixTurned d))) = _
    rw [this]
    rfl
  · intro lib hl
    exact c107_exact lib hl (d := 3) (by norm_num) (by norm_num) (sixPoints d) (sixTurned d) usesvd quarterTurn quarterTurn_similar fun j => rfl

/-- at the distance one there is a result, the search is good, and the distances are almost zero -/
example (usesvd : Bool) : ∃ fuel M, cSuperimposition (d := 3 + 0) (d' := 3 + 0) fuel (sixPoints 1) (sixTurned 1) false usesvd = some (.ok M) ∧
    sqDist (d := 3) M (sixPoints 1) (sixTurned 1) ≤ 1 / 100 := by
  obtain ⟨N, r, h, hr⟩ := six_value (le_refl (1:ℝ))
  have hv : ∃ v, topVector N (hornC (sixPoints 1) (sixTurned 1)) = some (some v) := by
    rw [topVector, h N le_rfl, six_horn]
    simp only [Option.map_some, six_shift]
    suffices h' : ∃ v, eigenvector ⟨-(r - 2 * 1 ^ 2), 0, 0, 2 * (2 * 1 ^ 2), -(r + 2 * 1 ^ 2), 0, 0, -(r + 2 * 1 ^ 2), 0, -(r - 2 * 1 ^ 2)⟩ = some v by
      obtain ⟨v, hv⟩ := h'
      exact ⟨v, by rw [hv]⟩
    obtain ⟨p, hp⟩ : ∃ p, p = r - 2 * 1 ^ 2 := ⟨_, rfl⟩
    obtain ⟨q, hq⟩ : ∃ q, q = r + 2 * 1 ^ 2 := ⟨_, rfl⟩
    rw [← hp, ← hq]
    obtain ⟨a1, a2⟩ := abs_le.1 hr
    have hsm : (1:ℝ) / 10 ^ 18 / 2 ≤ 1 := by norm_num
    refine eigenvector_some_of (i := 0) ?_
    rw [← (adjCol_dots _).1, (six_rows _ p q).1]
    have hp1 : 3 ≤ p := by linarith
    have hp2 : p ≤ 5 := by linarith
    have hq1 : 7 ≤ q := by linarith
    have hq2 : q ≤ 9 := by linarith
    have hq4 : 1 ≤ q ^ 4 := one_le_pow₀ (by linarith)
    have hb : (9:ℝ) ≤ q ^ 4 * (p ^ 2 + 4 * 2 ^ 2) := by nlinarith
    have he : eigEps ⟨-p, 0, 0, 2 * (2 * 1 ^ 2), -q, 0, 0, -q, 0, -p⟩ ≤ 9 := by
      unfold eigEps
      simp only
      rw [show (-p * -q * -q * -p - 0 * 0 * 0 * 0) * (1 / 10 ^ 6) = (p * q) ^ 2 * (1 / 10 ^ 6) by ring]
      split_ifs
      · norm_num [tEps]
      · have h1 : (p * q) ^ 2 ≤ 45 ^ 2 := pow_le_pow_left₀ (by positivity) (by nlinarith) 2
        have h2 : 0 ≤ (p * q) ^ 2 := by positivity
        nlinarith
    norm_num at hb ⊢
    norm_num at he
    linarith
  obtain ⟨v, hv⟩ := hv
  have hM : ∃ M, cSuperimposition (d := 3 + 0) (d' := 3 + 0) N (sixPoints 1) (sixTurned 1) false usesvd = some (.ok M) := by
    rw [cSup_eq (e := 0) N (sixPoints 1) (sixTurned 1), cSupCore_eq]
    change ∃ M, Option.map _ (topVector N (hornC (sixPoints 1) (sixTurned 1))) = _
    rw [hv]
    exact ⟨_, rfl⟩
  obtain ⟨M, hM⟩ := hM
  refine ⟨N, M, hM, ?_⟩
  have hB : ∀ v : Fin 3 → Fin 6 → ℝ, v = sixPoints 1 ∨ v = sixTurned 1 → ∑ a : Fin 3, ∑ j, (v a j - (∑ i, v a i) / ((6 : ℕ) : ℝ)) ^ 2 ≤ 6 := by
    rintro v (rfl | rfl)
    · simp [sixPoints, Fin.sum_univ_succ]; norm_num
    · rw [sixTurned_eq]; simp [Fin.sum_univ_succ]; norm_num
  obtain ⟨k, hk, -, hk1, hb⟩ := c112_superimposition_partial (e := 0) N (by norm_num) (sixPoints 1) (sixTurned 1) false usesvd M hM 6
    (hB _ (.inl rfl)) (hB _ (.inr rfl)) (six_search le_rfl N)
  rw [hk1 rfl] at hb
  have hz : sqDist (d := 3) quarterTurn (sixPoints 1) (sixTurned 1) = 0 := by
    unfold sqDist
    simp [sixTurned]
  have := hb quarterTurn quarterTurn_similar
  refine this.trans ?_
  change sqDist (d := 3) quarterTurn (sixPoints 1) (sixTurned 1) + _ ≤ _
  rw [hz]
  norm_num

end Electrode
