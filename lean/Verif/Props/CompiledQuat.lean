import Verif.Model.QuatC
import Verif.Props.Compiled
import Verif.Props.QuatFrom
import Verif.Props.Slerp

/-! C103: the compiled functions for Euler angles and quaternions and the Python functions they replace. -/

namespace Electrode

open Matrix Spec

namespace Spec

/-- the string has ASCII characters only -/
def Ascii (s : List Char) : Prop := ∀ c ∈ s, c.toNat < 128

end Spec

/-! ### names of axes -/

theorem hash_inj {s s' : List Char} (hs : Ascii s) (hs' : Ascii s') (l : s.length = 4) (l' : s'.length = 4)
    (h : s.foldr (fun c n => c.toNat + 256 * n) 0 = s'.foldr (fun c n => c.toNat + 256 * n) 0) : s = s' := by
  match s, s', l, l' with
  | [a, b, c, d], [a', b', c', d'], _, _ =>
    have e : ∀ {x y : Char}, x.toNat = y.toNat → x = y := fun h => Char.ext (UInt32.toNat_inj.1 h)
    have ha := hs a (by simp)
    have hb := hs b (by simp)
    have hc := hs c (by simp)
    have hd := hs d (by simp)
    have ha' := hs' a' (by simp)
    have hb' := hs' b' (by simp)
    have hc' := hs' c' (by simp)
    have hd' := hs' d' (by simp)
    simp only [List.foldr] at h
    have e1 : a.toNat = a'.toNat := by omega
    have e2 : b.toNat = b'.toNat := by omega
    have e3 : c.toNat = c'.toNat := by omega
    have e4 : d.toNat = d'.toNat := by omega
    rw [e e1, e e2, e e3, e e4]

/-- the numbers of the cases are those of the names read in either direction -/
theorem cases_names (e : (Nat × Nat) × AxTuple) (he : e ∈ cCases) : ∃ s, (s, e.2) ∈ axes2tuple ∧ e.1.1 = cHash true s ∧ e.1.2 = cHash false s := by
  have h : ∀ e ∈ cCases, ∃ p ∈ axes2tuple, p.2 = e.2 ∧ e.1.1 = cHash true p.1 ∧ e.1.2 = cHash false p.1 := by decide
  obtain ⟨p, hp, h1, h2⟩ := h e he
  exact ⟨p.1, by rw [← h1]; exact hp, h2⟩

theorem names_cases (p : List Char × AxTuple) (hp : p ∈ axes2tuple) : ((cHash true p.1, cHash false p.1), p.2) ∈ cCases := by
  have h : ∀ p ∈ axes2tuple, ((cHash true p.1, cHash false p.1), p.2) ∈ cCases := by decide
  exact h p hp

theorem names_ascii (p : List Char × AxTuple) (hp : p ∈ axes2tuple) : Ascii p.1 ∧ p.1.length = 4 := by
  have h : ∀ p ∈ axes2tuple, (∀ c ∈ p.1, c.toNat < 128) ∧ p.1.length = 4 := by decide
  exact h p hp

theorem cases_distinct (e e' : (Nat × Nat) × AxTuple) (he : e ∈ cCases) (he' : e' ∈ cCases) :
    (e.1.1 = e'.1.1 → e = e') ∧ (e.1.2 = e'.1.2 → e = e') ∧ e.1.1 ≠ e'.1.2 := by
  have h : ∀ e ∈ cCases, ∀ e' ∈ cCases, (e.1.1 = e'.1.1 → e = e') ∧ (e.1.2 = e'.1.2 → e = e') ∧ e.1.1 ≠ e'.1.2 := by decide
  exact h e he e' he'

theorem hash_eq_iff (little : Bool) {s : List Char} (hs : Ascii s) (l : s.length = 4) (p : List Char × AxTuple) (hp : p ∈ axes2tuple) :
    (cHash little s = cHash true p.1 ∨ cHash little s = cHash false p.1) ↔ (s = p.1 ∨ s.reverse = p.1) := by
  obtain ⟨ha, hl⟩ := names_ascii p hp
  have hsr : Ascii s.reverse := fun c hc => hs c (List.mem_reverse.1 hc)
  have har : Ascii p.1.reverse := fun c hc => ha c (List.mem_reverse.1 hc)
  have lr : s.reverse.length = 4 := by rw [List.length_reverse]; exact l
  have hlr : p.1.reverse.length = 4 := by rw [List.length_reverse]; exact hl
  cases little with
  | true =>
    constructor
    · rintro (h | h)
      · exact Or.inl (hash_inj hs ha l hl h)
      · exact Or.inr (by rw [hash_inj hs har l hlr h, List.reverse_reverse])
    · rintro (h | h)
      · exact Or.inl (by rw [h])
      · refine Or.inr ?_
        rw [← h]
        simp [cHash]
  | false =>
    constructor
    · rintro (h | h)
      · exact Or.inr (hash_inj hsr ha lr hl h)
      · refine Or.inl ?_
        have := hash_inj hsr har lr hlr h
        exact List.reverse_injective this
    · rintro (h | h)
      · exact Or.inr (by rw [h])
      · refine Or.inl ?_
        rw [← h]
        simp [cHash]

/-- C103: the strings the compiled functions accept are the twenty-four names and, besides, the names written backwards.  This does not
depend on the order of bytes of the machine. -/
theorem c103_names (little : Bool) (s : List Char) (hs : Ascii s) (t : AxTuple) :
    cAxTuple little (some (.str s)) = .ok t ↔ ((s, t) ∈ axes2tuple ∨ (s.reverse, t) ∈ axes2tuple) := by
  simp only [cAxTuple]
  by_cases l : s.length = 4
  · rw [if_pos l]
    constructor
    · intro h
      cases hf : cCases.find? fun e => decide (cHash little s = e.1.1 ∨ cHash little s = e.1.2) with
      | none => rw [hf] at h; cases h
      | some e =>
        rw [hf] at h
        have ht : e.2 = t := Except.ok.inj h
        have he := List.mem_of_find?_eq_some hf
        have hp := List.find?_some hf
        obtain ⟨n, hn, h1, h2⟩ := cases_names e he
        rw [decide_eq_true_iff, h1, h2] at hp
        rw [← ht]
        rcases (hash_eq_iff little hs l _ hn).1 hp with h | h
        · exact Or.inl (by rw [h]; exact hn)
        · exact Or.inr (by rw [h]; exact hn)
    · intro h
      obtain ⟨n, hn, hsn⟩ : ∃ n, (n, t) ∈ axes2tuple ∧ (s = n ∨ s.reverse = n) := by
        rcases h with h | h
        · exact ⟨_, h, Or.inl rfl⟩
        · exact ⟨_, h, Or.inr rfl⟩
      have hc := names_cases _ hn
      have hm := (hash_eq_iff little hs l _ hn).2 hsn
      cases hf : cCases.find? fun e => decide (cHash little s = e.1.1 ∨ cHash little s = e.1.2) with
      | none =>
        have := List.find?_eq_none.1 hf _ hc
        simp only [decide_eq_true_iff] at this
        exact absurd hm this
      | some e =>
        have he := List.mem_of_find?_eq_some hf
        have hp := List.find?_some hf
        rw [decide_eq_true_iff] at hp
        obtain ⟨d1, d2, d3⟩ := cases_distinct e _ he hc
        have d4 := (cases_distinct _ e hc he).2.2
        have : e = ((cHash true n, cHash false n), t) := by
          simp only at hm
          rcases hm with hm | hm <;> rcases hp with hp | hp
          · exact d1 (hp.symm.trans hm)
          · exact absurd (hm.symm.trans hp) d4
          · exact absurd (hp.symm.trans hm) d3
          · exact d2 (hp.symm.trans hm)
        rw [this]
  · rw [if_neg l]
    constructor
    · intro h; cases h
    · rintro (h | h)
      · exact absurd (names_ascii _ h).2 l
      · exact absurd (by simpa using (names_ascii _ h).2) l

/-- C103: every other string, and every tuple that is not in the table, is a ValueError; the tuples of the table are accepted. -/
theorem c103_tuples (little : Bool) (t : AxTuple) : cAxTuple little (some (.tup t)) =
    if t ∈ axes2tuple.map Prod.snd then .ok t else .error .valueError := by
  obtain ⟨f, p, r, m⟩ := t
  have h : ∀ f < 3, ∀ p < 2, ∀ r < 2, ∀ m < 2, (⟨f, p, r, m⟩ : AxTuple) ∈ axes2tuple.map Prod.snd := by decide
  have h' : ∀ t ∈ axes2tuple.map Prod.snd, t.first < 3 ∧ t.parity < 2 ∧ t.rep < 2 ∧ t.frame < 2 := by decide
  simp only [cAxTuple]
  by_cases hc : (⟨f, p, r, m⟩ : AxTuple) ∈ axes2tuple.map Prod.snd
  · obtain ⟨a, b, c, d⟩ := h' _ hc
    simp only at a b c d
    rw [if_pos hc, if_neg (by omega)]
  · rw [if_neg hc, if_pos]
    by_contra hn
    exact hc (h f (by omega) p (by omega) r (by omega) m (by omega))

theorem names_lookup {s : List Char} {t : AxTuple} : axes2tuple.lookup s = some t ↔ (s, t) ∈ axes2tuple := by
  have h : ∀ p ∈ axes2tuple, axes2tuple.lookup p.1 = some p.2 := by decide
  refine ⟨fun hl => ?_, fun hm => h _ hm⟩
  obtain ⟨k, hk, h1⟩ := List.lookup_eq_some_iff.1 hl
  rw [h1.1]
  simp

/-- where the Python function finds axes, the compiled one finds the same -/
theorem axes_agree (little : Bool) (axes : AxArg) (t : AxTuple) (h : axTuple false axes = .ok t) : cAxTuple little (some axes) = .ok t := by
  cases axes with
  | str s =>
    simp only [axTuple, Bool.false_eq_true, if_false] at h
    cases hl : axes2tuple.lookup s with
    | none => rw [hl] at h; cases h
    | some t' =>
      rw [hl] at h
      have ht : t' = t := Except.ok.inj h
      subst ht
      have hm := names_lookup.1 hl
      exact (c103_names little s (names_ascii _ hm).1 t').2 (Or.inl hm)
  | tup u =>
    simp only [axTuple] at h
    rw [c103_tuples]
    split_ifs at h ⊢ with hu
    · exact h

theorem axes_mem {b : Bool} {axes : AxArg} {t : AxTuple} (h : axTuple b axes = .ok t) : t ∈ axes2tuple.map Prod.snd := by
  cases axes with
  | str s =>
    simp only [axTuple] at h
    generalize (if b then s.map Char.toLower else s) = s' at h
    cases hl : axes2tuple.lookup s' with
    | none => rw [hl] at h; cases h
    | some t' =>
      rw [hl] at h
      have ht : t' = t := Except.ok.inj h
      subst ht
      exact List.mem_map.2 ⟨_, names_lookup.1 hl, rfl⟩
  | tup u =>
    simp only [axTuple] at h
    split_ifs at h with hu
    rw [← Except.ok.inj h]
    exact hu

/-- C103: the compiled `euler_matrix` returns what the Python function returns, whatever the new array contained before; without axes it
takes "sxyz" like the Python function. -/
theorem c103_euler_matrix (little : Bool) (G : Matrix (Fin 4) (Fin 4) ℝ) (ai aj ak : ℝ) (axes : AxArg) (M : Matrix (Fin 4) (Fin 4) ℝ)
    (h : eulerMatrix ai aj ak axes = .ok M) : cEulerMatrix little G ai aj ak (some axes) = .ok M ∧
    eulerMatrix ai aj ak (.str ['s', 'x', 'y', 'z']) = cEulerMatrix little G ai aj ak none := by
  have key : ∀ t ∈ axes2tuple.map Prod.snd, cEulerT G t ai aj ak = eulerMatrixT t ai aj ak := by
    intro t ht
    fin_cases ht <;> (ext a b; fin_cases a <;> fin_cases b <;> rfl)
  constructor
  · simp only [eulerMatrix] at h
    cases hx : axTuple false axes with
    | error e => rw [hx] at h; cases h
    | ok t =>
      rw [hx] at h
      simp only [cEulerMatrix, axes_agree little axes t hx]
      rw [key t (axes_mem hx)]
      exact h
  · have : axTuple false (.str ['s', 'x', 'y', 'z']) = .ok ⟨0, 0, 0, 0⟩ := rfl
    simp only [eulerMatrix, this, cEulerMatrix, cAxTuple]
    rw [key _ (by decide)]

/-- the argument is a tuple or a string without capital letters -/
theorem axTuple_lower {axes : AxArg} (hl : ∀ s, axes = .str s → s.map Char.toLower = s) : axTuple true axes = axTuple false axes := by
  cases axes with
  | str s => simp only [axTuple, if_true, Bool.false_eq_true, if_false, hl s rfl]
  | tup t => rfl

/-- C103: the compiled `euler_from_matrix` returns what the Python function returns, if the axes have no capital letters. -/
theorem c103_euler_from_partial (little : Bool) (M : Matrix (Fin 4) (Fin 4) ℝ) (axes : AxArg) (a : ℝ × ℝ × ℝ)
    (hl : ∀ s, axes = .str s → s.map Char.toLower = s) (h : eulerFromMatrix M axes = .ok a) :
    cEulerFrom little M (some axes) = .ok a ∧ eulerFromMatrix M (.str ['s', 'x', 'y', 'z']) = cEulerFrom little M none := by
  have key : ∀ t ∈ axes2tuple.map Prod.snd, cEulerFromT t M = eulerFromMatrixT t M := by
    intro t ht
    fin_cases ht <;> simp only [cEulerFromT, eulerFromMatrixT, eulerFromCore] <;> rfl
  constructor
  · simp only [eulerFromMatrix, axTuple_lower hl] at h
    cases hx : axTuple false axes with
    | error e => rw [hx] at h; cases h
    | ok t =>
      rw [hx] at h
      simp only [cEulerFrom, axes_agree little axes t hx]
      rw [key t (axes_mem hx)]
      exact h
  · have : axTuple true (.str ['s', 'x', 'y', 'z']) = .ok ⟨0, 0, 0, 0⟩ := rfl
    simp only [eulerFromMatrix, this, cEulerFrom, cAxTuple]
    rw [key _ (by decide)]

/-- C103: the compiled `quaternion_from_euler` likewise, whatever the new array contained before. -/
theorem c103_quat_euler_partial (little : Bool) (g : Quat) (ai aj ak : ℝ) (axes : AxArg) (q : Quat)
    (hl : ∀ s, axes = .str s → s.map Char.toLower = s) (h : quatFromEuler ai aj ak axes = .ok q) :
    cQuatEuler little g ai aj ak (some axes) = .ok q ∧
    quatFromEuler ai aj ak (.str ['s', 'x', 'y', 'z']) = cQuatEuler little g ai aj ak none := by
  have key : ∀ t ∈ axes2tuple.map Prod.snd, cQuatEulerT g t ai aj ak = quatFromEulerT t ai aj ak := by
    intro t ht
    fin_cases ht <;> (ext a; fin_cases a <;> rfl)
  constructor
  · simp only [quatFromEuler, axTuple_lower hl] at h
    cases hx : axTuple false axes with
    | error e => rw [hx] at h; cases h
    | ok t =>
      rw [hx] at h
      simp only [cQuatEuler, axes_agree little axes t hx]
      rw [key t (axes_mem hx)]
      exact h
  · have : axTuple true (.str ['s', 'x', 'y', 'z']) = .ok ⟨0, 0, 0, 0⟩ := rfl
    simp only [quatFromEuler, this, cQuatEuler, cAxTuple]
    rw [key _ (by decide)]

/-- C103: "SXYZ" is accepted by the Python functions and refused by the compiled ones; "zyxs" is accepted by the compiled ones only. -/
theorem c103_names_counterexample (little : Bool) : (∀ M, ∃ a, eulerFromMatrix M (.str ['S', 'X', 'Y', 'Z']) = .ok a) ∧
    (∀ M, cEulerFrom little M (some (.str ['S', 'X', 'Y', 'Z'])) = .error .valueError) ∧
    (∀ ai aj ak, eulerMatrix ai aj ak (.str ['z', 'y', 'x', 's']) = .error .keyError) ∧
    ∀ G ai aj ak, cEulerMatrix little G ai aj ak (some (.str ['z', 'y', 'x', 's'])) = cEulerMatrix little G ai aj ak none := by
  refine ⟨fun M => ⟨_, rfl⟩, fun M => ?_, fun _ _ _ => rfl, fun G ai aj ak => ?_⟩
  · have : cAxTuple little (some (.str ['S', 'X', 'Y', 'Z'])) = .error .valueError := by cases little <;> decide
    simp only [cEulerFrom, this]
  · have : cAxTuple little (some (.str ['z', 'y', 'x', 's'])) = .ok ⟨0, 0, 0, 0⟩ := by cases little <;> decide
    simp only [cEulerMatrix, this]
    rfl

/-! ### quaternions -/

theorem cNorm4_eq (q : Quat) : cNorm4 q = √(quatDot q) := by rw [cNorm4, quatDot_eq]

theorem cNorm4_vec (q : Quat) : cNorm4 q = vectorNorm q := by rw [cNorm4_eq]; rfl

/-- C103: the compiled products, conjugates and inverses; a quaternion that is too short is refused by `quaternion_inverse`. -/
theorem c103_algebra (q1 q0 : Quat) : cQuatMul q1 q0 = quatMul q1 q0 ∧ cQuatConj q0 = quatConj q0 ∧
    (tEps ≤ quatDot q0 → cQuatInv q0 = .ok (quatInv q0)) ∧ (quatDot q0 < tEps → cQuatInv q0 = .error .valueError) := by
  refine ⟨rfl, (quatConj_eq q0).symm, fun h => ?_, fun h => ?_⟩
  · rw [quatDot_eq] at h
    simp only [cQuatInv, if_neg (not_lt.2 h)]
    congr 1
    ext a
    rw [quatInv, quatDot_conj, quatDot_eq, quatConj_eq]
    fin_cases a <;> rfl
  · rw [quatDot_eq] at h
    simp only [cQuatInv, if_pos h]

/-- C103: the compiled `quaternion_about_axis`. -/
theorem c103_about_axis (angle : ℝ) (a : Fin 3 → ℝ) : cQuatAbout angle a = quatAboutAxis angle a := by
  have e : vectorNorm (![0, a 0, a 1, a 2] : Quat) = cNorm3 a := by
    simp [vectorNorm, Fin.sum_univ_four, cNorm3]
  simp only [cQuatAbout, quatAboutAxis, e]
  split_ifs <;> (ext i; fin_cases i <;> simp)

theorem unitVector4 (q : Quat) (a : Fin 4) : unitVector q a = q a / cNorm4 q := by rw [cNorm4_vec]; rfl

theorem vec4_eta (q : Quat) : ![q 0, q 1, q 2, q 3] = q := by ext a; fin_cases a <;> rfl

theorem quatDot_unit {q : Quat} (h : tEps ≤ vectorNorm q) : quatDot (unitVector q) = 1 := by
  have h0 : q ≠ 0 := by
    rintro rfl
    simp only [vectorNorm, Pi.zero_apply, mul_zero, Finset.sum_const_zero, Real.sqrt_zero] at h
    exact absurd tEps_pos (not_lt.2 h)
  rw [quatDot, inner4_sum]
  exact (unitVector_unitOf q h0).1

/-- C103: for every quaternion that is not shorter than the tolerance, the compiled `quaternion_matrix` returns the matrix of the
quaternion of length one in the same direction, and it leaves that quaternion in the array of the caller. -/
theorem c103_matrix (q : Quat) (h : tEps ≤ vectorNorm q) :
    (cQuatMatrix q).1 = quatMatrix (unitVector q) ∧ (cQuatMatrix q).2 = unitVector q := by
  have hn : ¬ cNorm4 q < tEps := by rw [cNorm4_vec, not_lt]; exact h
  have hu := quatDot_unit h
  rw [quatMatrix_unit _ hu]
  have e : ![q 0 / cNorm4 q, q 1 / cNorm4 q, q 2 / cNorm4 q, q 3 / cNorm4 q] = unitVector q := by
    rw [← unitVector4, ← unitVector4, ← unitVector4, ← unitVector4, vec4_eta]
  simp only [cQuatMatrix, if_neg hn, e, and_true]
  rw [quatDot_eq] at hu
  generalize unitVector q = u at *
  ext i j
  fin_cases i <;> fin_cases j <;> simp [homog, homMat] <;> first | ring1 | linear_combination -hu | linear_combination hu

/-- C103: that is the matrix of the Python function, which however takes the square of the length for the test. -/
theorem c103_matrix_python (q : Quat) (h : tEps ≤ quatDot q) : (cQuatMatrix q).1 = quatMatrix q := by
  have hp : 0 < quatDot q := lt_of_lt_of_le tEps_pos h
  have hn : tEps ≤ vectorNorm q := by
    refine Real.le_sqrt_of_sq_le (le_trans ?_ h)
    have h1 : tEps < 1 := by norm_num [tEps]
    nlinarith [tEps_pos]
  rw [(c103_matrix q hn).1, quatMatrix_unit _ (quatDot_unit hn), quatMatrix_big q h]
  congr 1
  have hs : cNorm4 q * cNorm4 q = quatDot q := by rw [cNorm4_eq]; exact Real.mul_self_sqrt hp.le
  have hd : cNorm4 q ≠ 0 := by rw [cNorm4_eq]; exact (Real.sqrt_pos.2 hp).ne'
  rw [← hs]
  ext i j
  fin_cases i <;> fin_cases j <;> simp [homMat, unitVector4] <;> field_simp

/-- C103: the array of the caller is not left as it was. -/
theorem c103_matrix_counterexample : (cQuatMatrix ![2, 0, 0, 0]).2 ≠ ![2, 0, 0, 0] := by
  have hn : vectorNorm (![2, 0, 0, 0] : Quat) = 2 := by
    simp [vectorNorm, Fin.sum_univ_four]
  have h := (c103_matrix ![2, 0, 0, 0] (by rw [hn]; norm_num [tEps])).2
  rw [h]
  intro he
  have := congrFun he 0
  rw [unitVector4, cNorm4_vec, hn] at this
  norm_num at this

/-! ### from matrices -/

set_option maxHeartbeats 1000000 in
/-- the compiled precise version takes one row of the table of products, and that row is not zero -/
theorem c_precise_row {M : Matrix (Fin 4) (Fin 4) ℝ} {R : Matrix (Fin 3) (Fin 3) ℝ} (hM : ∀ a b : Fin 3, M a.castSucc b.castSucc = R a b)
    (h33 : M 3 3 = 1) : ∃ i, 0 < rotP R i i ∧ cQuatPrecise M = .ok fun a => rotP R i a * (1 / 2 / √(rotP R i i * 1)) := by
  have m00 : M 0 0 = R 0 0 := hM 0 0
  have m01 : M 0 1 = R 0 1 := hM 0 1
  have m02 : M 0 2 = R 0 2 := hM 0 2
  have m10 : M 1 0 = R 1 0 := hM 1 0
  have m11 : M 1 1 = R 1 1 := hM 1 1
  have m12 : M 1 2 = R 1 2 := hM 1 2
  have m20 : M 2 0 = R 2 0 := hM 2 0
  have m21 : M 2 1 = R 2 1 := hM 2 1
  have m22 : M 2 2 = R 2 2 := hM 2 2
  have p00 : rotP R 0 0 = 1 + R 0 0 + R 1 1 + R 2 2 := rfl
  have p11 : rotP R 1 1 = 1 + R 0 0 - R 1 1 - R 2 2 := rfl
  have p22 : rotP R 2 2 = 1 - R 0 0 + R 1 1 - R 2 2 := rfl
  have p33 : rotP R 3 3 = 1 - R 0 0 - R 1 1 + R 2 2 := rfl
  have hz : cIsZero (1 : ℝ) = false := by rw [← Bool.not_eq_true, cIsZero_iff, not_lt]; norm_num [tEps]
  have key : ∀ t : ℝ, 0 < t → 1 / 4 / (1 / 2 / √t) = t * (1 / 2 / √t) := fun t ht => by
    have h1 := Real.mul_self_sqrt ht.le
    have h2 := (Real.sqrt_pos.2 ht).ne'
    field_simp
    linear_combination 4 * h1
  unfold cQuatPrecise
  simp only [h33, hz, Bool.false_eq_true, if_false, ne_eq, not_true_eq_false, m00, m01, m02, m10, m11, m12, m20, m21, m22]
  by_cases h0 : 0 < R 0 0 + R 1 1 + R 2 2
  · have hp : 0 < rotP R 0 0 := by rw [p00]; linarith
    have e : R 0 0 + R 1 1 + R 2 2 + 1 = rotP R 0 0 := by rw [p00]; ring
    refine ⟨0, hp, ?_⟩
    rw [if_pos h0, e, key _ hp, mul_one]
    congr 1
    ext a
    fin_cases a <;> rfl
  rw [if_neg h0]
  by_cases h1 : R 1 1 < R 0 0 ∧ R 2 2 < R 0 0
  · have hp : 0 < rotP R 1 1 := by rw [p11]; linarith [h1.1, h1.2]
    have e : R 0 0 - (R 1 1 + R 2 2) + 1 = rotP R 1 1 := by rw [p11]; ring
    refine ⟨1, hp, ?_⟩
    rw [if_pos h1, e, key _ hp, mul_one]
    congr 1
    ext a
    fin_cases a <;> simp [rotP, -mul_eq_mul_right_iff, -mul_eq_mul_left_iff] <;> ring
  rw [if_neg h1]
  by_cases h2 : R 2 2 < R 1 1
  · have h3 : R 0 0 ≤ R 1 1 := by
      by_contra hc
      exact h1 ⟨not_le.1 hc, h2.trans (not_le.1 hc)⟩
    have hp : 0 < rotP R 2 2 := by rw [p22]; linarith
    have e : R 1 1 - (R 0 0 + R 2 2) + 1 = rotP R 2 2 := by rw [p22]; ring
    refine ⟨2, hp, ?_⟩
    rw [if_pos h2, e, key _ hp, mul_one]
    congr 1
    ext a
    fin_cases a <;> simp [rotP, -mul_eq_mul_right_iff, -mul_eq_mul_left_iff] <;> ring
  · have h3 : R 0 0 ≤ R 2 2 := by
      by_contra hc
      exact h1 ⟨lt_of_le_of_lt (not_lt.1 h2) (not_le.1 hc), not_le.1 hc⟩
    have hp : 0 < rotP R 3 3 := by rw [p33]; linarith [not_lt.1 h2]
    have e : R 2 2 - (R 0 0 + R 1 1) + 1 = rotP R 3 3 := by rw [p33]; ring
    refine ⟨3, hp, ?_⟩
    rw [if_neg h2, e, key _ hp, mul_one]
    congr 1
    ext a
    fin_cases a <;> simp [rotP, -mul_eq_mul_right_iff, -mul_eq_mul_left_iff] <;> ring

/-- C103: for every rotation matrix the compiled `quaternion_from_matrix` with `isprecise=True` returns a unit quaternion of this
rotation: the quaternion of the Python function or its negative. -/
theorem c103_precise (M : Matrix (Fin 4) (Fin 4) ℝ) (R : Matrix (Fin 3) (Fin 3) ℝ) (hM : Homog M R) (hR : IsRotation R) :
    ∃ q, cQuatPrecise M = .ok q ∧ quatDot q = 1 ∧ quatMatrix q = M ∧ (q = quatFromPrecise M ∨ q = -quatFromPrecise M) := by
  obtain ⟨i, hi, e⟩ := c_precise_row hM.1 hM.2.2
  refine ⟨_, e, ?_⟩
  obtain ⟨h1, h2⟩ := of_products _ R (row_products hR i hi)
  have h3 : quatMatrix (fun a => rotP R i a * (1 / 2 / √(rotP R i i * 1))) = M := by
    rw [quatMatrix_unit _ h1, h2]
    exact Homog.unique (homog_spec _) hM
  obtain ⟨a1, a2, -⟩ := c83_precise M R hM hR
  exact ⟨h1, h3, (c68_sign _ _ h1 a1).1 (h3.trans a2.symm)⟩

/-- C103: a homogeneous matrix and its positive multiples mean the same transformation, and give the same quaternion. -/
theorem c103_precise_multiple (M : Matrix (Fin 4) (Fin 4) ℝ) (h33 : M 3 3 = 1) (k : ℝ) (hk : tEps ≤ k) : cQuatPrecise (k • M) = cQuatPrecise M := by
  have hk0 : 0 < k := lt_of_lt_of_le tEps_pos hk
  have hs0 : √k ≠ 0 := (Real.sqrt_pos.2 hk0).ne'
  have hz : cIsZero k = false := by
    simp only [cIsZero, decide_eq_false_iff_not]
    rintro ⟨h, -⟩
    linarith
  have hz1 : cIsZero (1 : ℝ) = false := by
    simp only [cIsZero, decide_eq_false_iff_not]
    rintro ⟨h, -⟩
    norm_num [tEps] at h
  by_cases h1 : k = 1
  · rw [h1, one_smul]
  have hss : √k * √k = k := Real.mul_self_sqrt hk0.le
  have w : ∀ t : ℝ, 1 / 4 / (1 / 2 / √(k * t)) * (1 / √k) = 1 / 4 / (1 / 2 / √t) := by
    intro t
    rw [Real.sqrt_mul hk0.le]
    have : ∀ x : ℝ, 1 / 4 / (1 / 2 / x) = x / 2 := by
      intro x
      rw [div_div_eq_mul_div]
      ring
    rw [this, this]
    field_simp
  have u : ∀ a t : ℝ, k * a * (1 / 2 / √(k * t)) * (1 / √k) = a * (1 / 2 / √t) := by
    intro a t
    rw [Real.sqrt_mul hk0.le]
    conv_lhs => rw [← hss]
    rw [← div_div, Real.sqrt_mul_self (Real.sqrt_nonneg k)]
    field_simp
  have c0 : 0 < k * M 0 0 + k * M 1 1 + k * M 2 2 ↔ 0 < M 0 0 + M 1 1 + M 2 2 := by
    rw [← mul_add, ← mul_add, mul_pos_iff_of_pos_left hk0]
  have c1 : ∀ a b : ℝ, k * a < k * b ↔ a < b := fun a b => mul_lt_mul_iff_right₀ hk0
  simp only [cQuatPrecise, Matrix.smul_apply, smul_eq_mul, h33, mul_one, hz, hz1, Bool.false_eq_true, if_false, ne_eq, h1, not_false_iff, if_true,
    not_true_eq_false, c0, c1]
  have e0 : k * M 0 0 + k * M 1 1 + k * M 2 2 + k = k * (M 0 0 + M 1 1 + M 2 2 + 1) := by ring
  have e1 : k * M 0 0 - (k * M 1 1 + k * M 2 2) + k = k * (M 0 0 - (M 1 1 + M 2 2) + 1) := by ring
  have e2 : k * M 1 1 - (k * M 0 0 + k * M 2 2) + k = k * (M 1 1 - (M 0 0 + M 2 2) + 1) := by ring
  have e3 : k * M 2 2 - (k * M 0 0 + k * M 1 1) + k = k * (M 2 2 - (M 0 0 + M 1 1) + 1) := by ring
  rw [e0, e1, e2, e3]
  congr 1
  split_ifs <;> ext a <;> fin_cases a <;>
    simp only [Fin.zero_eta, Fin.mk_one, Fin.reduceFinMk, Matrix.cons_val_zero, Matrix.cons_val_one, Matrix.cons_val, ← mul_sub, ← mul_add, w, u]

example : tEps ≤ (4 : ℝ) := by norm_num [tEps]

/-- C103: the real part may be negative, though the Python function promises a real part that is not. -/
theorem c103_precise_counterexample : ∃ q, cQuatPrecise (quatMatrix ![-2 / 7, 3 / 7, 6 / 7, 0]) = .ok q ∧ q 0 < 0 := by
  have h1 : quatDot ![-2 / 7, 3 / 7, 6 / 7, 0] = 1 := by
    rw [quatDot_eq]
    simp only [Matrix.cons_val_zero, Matrix.cons_val_one, Matrix.cons_val]
    norm_num
  have hm : homMat ![-2 / 7, 3 / 7, 6 / 7, 0] = !![-23 / 49, 36 / 49, -24 / 49; 36 / 49, 31 / 49, 12 / 49; 24 / 49, -12 / 49, -41 / 49] := by
    ext i j
    fin_cases i <;> fin_cases j <;> simp [homMat] <;> norm_num
  obtain ⟨hM, -, h33⟩ := homog_spec (homMat ![-2 / 7, 3 / 7, 6 / 7, 0])
  rw [quatMatrix_unit _ h1]
  have m00 := hM 0 0
  have m11 := hM 1 1
  have m22 := hM 2 2
  have m02 := hM 0 2
  have m20 := hM 2 0
  generalize homog (homMat ![-2 / 7, 3 / 7, 6 / 7, 0]) = M at *
  rw [hm] at m00 m11 m22 m02 m20
  replace m00 : M 0 0 = -23 / 49 := m00
  replace m11 : M 1 1 = 31 / 49 := m11
  replace m22 : M 2 2 = -41 / 49 := m22
  replace m02 : M 0 2 = -24 / 49 := m02
  replace m20 : M 2 0 = 24 / 49 := m20
  have hz : cIsZero (1 : ℝ) = false := by rw [← Bool.not_eq_true, cIsZero_iff, not_lt]; norm_num [tEps]
  have c1 : ¬ (0 : ℝ) < -23 / 49 + 31 / 49 + -41 / 49 := by norm_num
  have c2 : ¬ ((31 : ℝ) / 49 < -23 / 49 ∧ (-41 : ℝ) / 49 < -23 / 49) := by norm_num
  have c3 : (-41 : ℝ) / 49 < 31 / 49 := by norm_num
  simp only [cQuatPrecise, h33, hz, Bool.false_eq_true, if_false, ne_eq, not_true_eq_false, m00, m11, m22, m02, m20, if_neg c1, if_neg c2,
    if_pos c3]
  refine ⟨_, rfl, ?_⟩
  simp only [Matrix.cons_val_zero]
  have hs : 0 < √((31 : ℝ) / 49 - (-23 / 49 + -41 / 49) + 1) := Real.sqrt_pos.2 (by norm_num)
  have : 0 < 1 / 2 / √((31 : ℝ) / 49 - (-23 / 49 + -41 / 49) + 1) := by positivity
  nlinarith

/-! ### interpolation -/

/-- an angle whose cosine is not near 1 or -1 is not small -/
theorem angle_not_small (d : ℝ) (k : ℤ) (hd : |d| ≤ 1 - tEps) : tEps < |Real.arccos d + k * Real.pi| := by
  have he := tEps_pos
  have he1 : tEps < 1 := by unfold tEps; norm_num
  obtain ⟨h1, h2⟩ := abs_le.1 hd
  have hcos : |Real.cos (Real.arccos d + k * Real.pi)| = |d| := by
    rw [Real.cos_add_int_mul_pi, abs_mul, abs_zpow, abs_neg, abs_one, _root_.one_zpow, one_mul, Real.cos_arccos (by linarith) (by linarith)]
  by_contra hc
  rw [not_lt] at hc
  generalize Real.arccos d + k * Real.pi = x at *
  have h3 := Real.one_sub_sq_div_two_le_cos (x := x)
  have h4 : x ^ 2 ≤ tEps ^ 2 := sq_le_sq' (by linarith [(abs_le.1 hc).1]) (abs_le.1 hc).2
  have h5 : Real.cos x ≤ |d| := hcos ▸ le_abs_self _
  nlinarith

/-- C103: the compiled `quaternion_slerp` gives what the Python function gives, for fractions that are not near -1, 0 and 1 without being
0 or 1. -/
theorem c103_slerp_partial (q0 q1 : Quat) (f : ℝ) (k : ℤ) (shortest : Bool) (h0 : tEps ≤ vectorNorm q0) (h1 : tEps ≤ vectorNorm q1)
    (hf : f = 0 ∨ f = 1 ∨ (tEps < |f| ∧ tEps ≤ |(|f| - 1)|)) (hp : |inner4 (unitVector q0) (unitVector q1)| ≠ 1 - tEps) :
    cSlerp q0 q1 f k shortest = .ok (quatSlerp q0 q1 f k shortest) := by
  have he := tEps_pos
  have he1 : tEps < 1 := by unfold tEps; norm_num
  have hu0 : inner4 (unitVector q0) (unitVector q0) = 1 := by rw [← inner4_sum]; exact quatDot_unit h0
  have hu1 : inner4 (unitVector q1) (unitVector q1) = 1 := by rw [← inner4_sum]; exact quatDot_unit h1
  have hle := inner4_abs_le _ _ hu0 hu1
  have e0 : ![q0 0 / cNorm4 q0, q0 1 / cNorm4 q0, q0 2 / cNorm4 q0, q0 3 / cNorm4 q0] = unitVector q0 := by
    rw [← unitVector4, ← unitVector4, ← unitVector4, ← unitVector4, vec4_eta]
  have e1 : ![q1 0 / cNorm4 q1, q1 1 / cNorm4 q1, q1 2 / cNorm4 q1, q1 3 / cNorm4 q1] = unitVector q1 := by
    rw [← unitVector4, ← unitVector4, ← unitVector4, ← unitVector4, vec4_eta]
  have ea : (unitVector q0 0 * q1 0 + unitVector q0 1 * q1 1 + unitVector q0 2 * q1 2 + unitVector q0 3 * q1 3) / cNorm4 q1
      = inner4 (unitVector q0) (unitVector q1) := by
    simp only [inner4, unitVector4 q1]
    ring
  have hu : ∀ a, q1 a / cNorm4 q1 = unitVector q1 a := fun a => (unitVector4 q1 a).symm
  have n0 : ¬ cNorm4 q0 < tEps := by rw [cNorm4_vec, not_lt]; exact h0
  have n1 : ¬ cNorm4 q1 < tEps := by rw [cNorm4_vec, not_lt]; exact h1
  simp only [cSlerp, if_neg n0, if_neg n1, e0, e1, ea, quatSlerp, inner4_sum]
  rcases hf with rfl | rfl | ⟨hf1, hf2⟩
  · have z : cNotZero (0 : ℝ) = false := by rw [← Bool.not_eq_true, cNotZero_iff, not_lt, abs_zero]; exact he.le
    rw [if_neg (by rw [abs_zero, zero_sub, abs_neg, abs_one]; linarith), z, if_pos rfl]
    rfl
  · rw [if_pos (by rw [abs_one, sub_self, abs_zero]; exact he), if_neg one_ne_zero, if_pos rfl]
  · have f0 : f ≠ 0 := fun h => by rw [h, abs_zero] at hf1; linarith
    have f1 : f ≠ 1 := fun h => by rw [h, abs_one, sub_self, abs_zero] at hf2; linarith
    have z : cNotZero f = true := (cNotZero_iff f).2 hf1
    rw [if_neg (not_lt.2 hf2), z, if_neg f0, if_neg f1, if_pos rfl]
    generalize unitVector q0 = u0 at *
    obtain ⟨c, hc⟩ : ∃ c, c = inner4 u0 (unitVector q1) := ⟨_, rfl⟩
    rw [← hc] at hp hle ⊢
    have habs : |(|c| - 1)| = 1 - |c| := by rw [abs_of_nonpos (by linarith)]; ring
    rw [habs]
    by_cases hs : tEps < 1 - |c|
    · rw [if_pos hs, if_neg (show ¬ (1 - |c| < tEps) by linarith)]
      have hd : |c| ≤ 1 - tEps := by linarith
      have hneg : ∀ x : ℝ, |x| ≤ 1 - tEps → cNotZero (Real.arccos x + k * Real.pi) = true ∧ ¬ |Real.arccos x + k * Real.pi| < tEps :=
        fun x hx => ⟨(cNotZero_iff _).2 (angle_not_small x k hx), not_lt.2 (angle_not_small x k hx).le⟩
      by_cases hfl : shortest = true ∧ c < 0
      · obtain ⟨y1, y2⟩ := hneg (-c) (by rwa [abs_neg])
        simp only [hfl, and_self, decide_true, if_true, y1, if_neg y2]
        congr 1
        ext a
        fin_cases a <;> simp [unitVector4 q1] <;> ring
      · obtain ⟨y1, y2⟩ := hneg c hd
        simp only [hfl, decide_false, Bool.false_eq_true, if_false, if_true, y1, if_neg y2]
        congr 1
        ext a
        fin_cases a <;> simp [unitVector4 q1] <;> ring
    · have hlt : 1 - |c| < tEps := lt_of_le_of_ne (not_lt.1 hs) fun h => hp (by linarith)
      rw [if_neg hs, if_pos hlt]

/-- C103: at the fraction -1 the Python function goes back as far as the way to the second quaternion; the compiled function returns the
second quaternion. -/
theorem c103_slerp_counterexample : quatSlerp ![1, 0, 0, 0] ![0, 1, 0, 0] (-1) 0 true = ![0, -1, 0, 0] ∧
    cSlerp ![1, 0, 0, 0] ![0, 1, 0, 0] (-1) 0 true = .ok ![0, 1, 0, 0] := by
  have n0 : cNorm4 ![1, 0, 0, 0] = 1 := by simp [cNorm4]
  have n1 : cNorm4 ![0, 1, 0, 0] = 1 := by simp [cNorm4]
  have he := tEps_pos
  have he1 : tEps < 1 := by unfold tEps; norm_num
  constructor
  · have u0 : unitVector ![1, 0, 0, 0] = (![1, 0, 0, 0] : Quat) := by funext a; rw [unitVector4, n0, div_one]
    have u1 : unitVector ![0, 1, 0, 0] = (![0, 1, 0, 0] : Quat) := by funext a; rw [unitVector4, n1, div_one]
    have hi : ∑ a, (![1, 0, 0, 0] : Quat) a * (![0, 1, 0, 0] : Quat) a = 0 := by simp [Fin.sum_univ_four]
    have c1 : ¬ |(|(0 : ℝ)| - 1)| < tEps := by rw [abs_zero, zero_sub, abs_neg, abs_one]; linarith
    have c2 : ¬ |Real.pi / 2| < tEps := by
      have := Real.pi_gt_three
      rw [abs_of_pos (by linarith)]
      linarith
    simp only [quatSlerp, u0, u1, hi, if_neg c1, Real.arccos_zero, lt_irrefl, and_false, if_false, zero_mul, add_zero, if_neg c2]
    have e1 : (1 - -1) * (Real.pi / 2) = Real.pi := by ring
    have e2 : -1 * (Real.pi / 2) = -(Real.pi / 2) := by ring
    simp only [e1, e2, Real.sin_pi, Real.sin_neg, Real.sin_pi_div_two]
    norm_num
    ext a
    fin_cases a <;> simp
  · have c0 : ¬ (1 : ℝ) < tEps := by linarith
    have c1 : |(|(-1 : ℝ)| - 1)| < tEps := by rw [abs_neg, abs_one, sub_self, abs_zero]; exact he
    simp only [cSlerp, n0, n1, if_neg c0, if_pos c1]
    simp

/-- the hypotheses can be met -/
example : tEps ≤ vectorNorm (![1, 0, 0, 0] : Quat) ∧ Ascii ['r', 'z', 'x', 'z'] ∧
    (∀ ai aj ak, ∃ M, eulerMatrix ai aj ak (.str ['r', 'z', 'x', 'z']) = .ok M) ∧
    |inner4 (unitVector ![1, 0, 0, 0]) (unitVector ![0, 1, 0, 0])| ≠ 1 - tEps := by
  have n0 : cNorm4 ![1, 0, 0, 0] = 1 := by simp [cNorm4]
  refine ⟨?_, by unfold Ascii; decide, fun _ _ _ => ⟨_, rfl⟩, ?_⟩
  · rw [← cNorm4_vec, n0]
    norm_num [tEps]
  · have : inner4 (unitVector ![1, 0, 0, 0]) (unitVector ![0, 1, 0, 0]) = 0 := by simp [inner4, unitVector4]
    rw [this, abs_zero]
    norm_num [tEps]

end Electrode
