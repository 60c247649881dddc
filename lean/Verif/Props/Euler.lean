import Verif.Lemmas.Euler

/-
C67: Euler angles.
-/
namespace Electrode
namespace Spec

/-- the rotation by `θ` about the x, y or z axis -/
noncomputable def axisRot (a : Fin 3) (θ : ℝ) : Matrix (Fin 3) (Fin 3) ℝ :=
  match a with
  | 0 => !![1, 0, 0; 0, Real.cos θ, -Real.sin θ; 0, Real.sin θ, Real.cos θ]
  | 1 => !![Real.cos θ, 0, Real.sin θ; 0, 1, 0; -Real.sin θ, 0, Real.cos θ]
  | 2 => !![Real.cos θ, -Real.sin θ, 0; Real.sin θ, Real.cos θ, 0; 0, 0, 1]

/-- the name of an axis -/
def letter (a : Fin 3) : Char := match a with
  | 0 => 'x'
  | 1 => 'y'
  | 2 => 'z'

/-- the name of a sequence of axes: `s` for a static frame, `r` for a frame that is rotated with the body -/
def axesName (static : Bool) (a b c : Fin 3) : List Char := [if static then 's' else 'r', letter a, letter b, letter c]

/-- `M` is the homogeneous matrix of the linear map `R` -/
def Homog (M : Matrix (Fin 4) (Fin 4) ℝ) (R : Matrix (Fin 3) (Fin 3) ℝ) : Prop :=
  (∀ a b : Fin 3, M a.castSucc b.castSucc = R a b) ∧ (∀ a : Fin 3, M a.castSucc 3 = 0 ∧ M 3 a.castSucc = 0) ∧ M 3 3 = 1

/-- the three rotations one after the other: in a static frame the later ones are applied to what the earlier ones give; in a
rotating frame the order is reversed -/
noncomputable def threeRot (static : Bool) (a b c : Fin 3) (x y z : ℝ) : Matrix (Fin 3) (Fin 3) ℝ :=
  if static then axisRot c z * axisRot b y * axisRot a x else axisRot a x * axisRot b y * axisRot c z

/-- the middle rotation is not within `_EPS` of a degenerate one, or is exactly degenerate -/
def Regular (a c : Fin 3) (y : ℝ) : Prop :=
  if a = c then tEps < |Real.sin y| ∨ Real.sin y = 0 else tEps < |Real.cos y| ∨ Real.cos y = 0

end Spec
open Spec

theorem homog_spec (R : Matrix (Fin 3) (Fin 3) ℝ) : Homog (homog R) R := by
  refine ⟨fun a b => ?_, fun a => ?_, rfl⟩
  · simp [homog]
  · fin_cases a <;> exact ⟨rfl, rfl⟩

theorem Homog.unique {M M' : Matrix (Fin 4) (Fin 4) ℝ} {R : Matrix (Fin 3) (Fin 3) ℝ} (h : Homog M R) (h' : Homog M' R) : M = M' := by
  ext a b
  refine Fin.lastCases ?_ (fun a => ?_) a <;> refine Fin.lastCases ?_ (fun b => ?_) b
  · exact h.2.2.trans h'.2.2.symm
  · exact (h.2.1 b).2.trans (h'.2.1 b).2.symm
  · exact (h.2.1 a).1.trans (h'.2.1 a).1.symm
  · rw [h.1, h'.1]

theorem axisRot_isRotation (a : Fin 3) (θ : ℝ) : IsRotation (axisRot a θ) := by
  have h := Real.sin_sq_add_cos_sq θ
  constructor
  · ext p q
    rw [Matrix.mul_apply, Fin.sum_univ_three]
    fin_cases a <;> fin_cases p <;> fin_cases q <;> simp [axisRot, Matrix.transpose_apply] <;> first | ring1 | linear_combination h
  · rw [Matrix.det_fin_three]
    fin_cases a <;> simp [axisRot] <;> linear_combination h

theorem threeRot_isRotation (static : Bool) (a b c : Fin 3) (x y z : ℝ) : IsRotation (threeRot static a b c x y z) := by
  cases static
  · exact isRotation_mul (isRotation_mul (axisRot_isRotation a x) (axisRot_isRotation b y)) (axisRot_isRotation c z)
  · exact isRotation_mul (isRotation_mul (axisRot_isRotation c z) (axisRot_isRotation b y)) (axisRot_isRotation a x)

/-- the tuple of a sequence -/
def tupleOf (static : Bool) (a b c : Fin 3) : AxTuple :=
  let first := if static then a else c
  let parity := if b = first + 1 then 0 else 1
  ⟨first.val, parity, if a = c then 1 else 0, if static then 0 else 1⟩

theorem axTuple_name (lower static : Bool) (a b c : Fin 3) (hab : a ≠ b) (hbc : b ≠ c) :
    axTuple lower (.str (axesName static a b c)) = .ok (tupleOf static a b c) := by
  revert lower static a b c
  decide

theorem axTuple_tup (lower static : Bool) (a b c : Fin 3) (hab : a ≠ b) (hbc : b ≠ c) :
    axTuple lower (.tup (tupleOf static a b c)) = .ok (tupleOf static a b c) := by
  revert lower static a b c
  decide

theorem axTuple_ok (lower : Bool) (axes : AxArg) (t : AxTuple) (h : axTuple lower axes = .ok t) :
    ∃ static a b c, a ≠ b ∧ b ≠ c ∧ t = tupleOf static a b c := by
  have hmem : t ∈ axes2tuple.map Prod.snd := by
    cases axes with
    | str s =>
      simp only [axTuple] at h
      split at h
      · rename_i t' ht
        obtain rfl := Except.ok.inj h
        revert ht
        generalize (if lower = true then s.map Char.toLower else s) = key
        intro ht
        have : ∀ (l : List (List Char × AxTuple)), l.lookup key = some t' → t' ∈ l.map Prod.snd := by
          intro l
          induction l with
          | nil => intro h; cases h
          | cons p l ih =>
            intro h
            rw [List.lookup_cons] at h
            split at h
            · obtain rfl := Option.some.inj h
              exact List.mem_cons_self
            · exact List.mem_cons_of_mem _ (ih h)
        exact this _ ht
      · cases h
    | tup t' =>
      simp only [axTuple] at h
      split at h
      · rename_i hm
        obtain rfl := Except.ok.inj h
        exact hm
      · cases h
  clear h
  have all : ∀ t ∈ axes2tuple.map Prod.snd, ∃ static a b c, a ≠ b ∧ b ≠ c ∧ t = tupleOf static a b c := by decide
  exact all t hmem

/-- the axes of a tuple, as a permutation -/
def permOf (t : AxTuple) : Fin 3 → Fin 3 := ![(axIJK t).1, (axIJK t).2.1, (axIJK t).2.2]

theorem permOf_bij : ∀ static a b c, a ≠ b → b ≠ c → Function.Bijective (permOf (tupleOf static a b c)) := by
  intro static a b c hab hbc
  have : Function.Injective (permOf (tupleOf static a b c)) := by
    have all : ∀ (static : Bool) (a b c : Fin 3), a ≠ b → b ≠ c → ∀ p q, permOf (tupleOf static a b c) p = permOf (tupleOf static a b c) q → p = q := by
      decide
    exact all static a b c hab hbc
  exact ⟨this, Finite.surjective_of_injective this⟩

theorem writeAll_perm (σ : Fin 3 → Fin 3) (hσ : Function.Injective σ) (v : Fin 3 → Fin 3 → ℝ) (p q : Fin 3) :
    writeAll [((σ 0, σ 0), v 0 0), ((σ 0, σ 1), v 0 1), ((σ 0, σ 2), v 0 2), ((σ 1, σ 0), v 1 0), ((σ 1, σ 1), v 1 1),
      ((σ 1, σ 2), v 1 2), ((σ 2, σ 0), v 2 0), ((σ 2, σ 1), v 2 1), ((σ 2, σ 2), v 2 2)] (σ p) (σ q) = v p q := by
  show (if σ p = σ 2 ∧ σ q = σ 2 then v 2 2 else if σ p = σ 2 ∧ σ q = σ 1 then v 2 1 else if σ p = σ 2 ∧ σ q = σ 0 then v 2 0 else if σ p = σ 1 ∧ σ q = σ 2 then v 1 2 else if σ p = σ 1 ∧ σ q = σ 1 then v 1 1 else if σ p = σ 1 ∧ σ q = σ 0 then v 1 0 else if σ p = σ 0 ∧ σ q = σ 2 then v 0 2 else if σ p = σ 0 ∧ σ q = σ 1 then v 0 1 else if σ p = σ 0 ∧ σ q = σ 0 then v 0 0 else (1 : Matrix (Fin 3) (Fin 3) ℝ) (σ p) (σ q)) = v p q
  simp only [hσ.eq_iff]
  fin_cases p <;> fin_cases q <;> simp

theorem eulerCore_perm (rep : Bool) (σ : Fin 3 → Fin 3) (hσ : Function.Injective σ) (x y z : ℝ) (p q : Fin 3) :
    eulerCore rep (σ 0) (σ 1) (σ 2) x y z (σ p) (σ q) = eulerCore rep 0 1 2 x y z p q := by
  cases rep
  · rw [eulerCore_false]
    simp only [eulerCore, Bool.false_eq_true, if_false]
    exact writeAll_perm σ hσ !![Real.cos y * Real.cos z, Real.sin y * (Real.sin x * Real.cos z) - Real.cos x * Real.sin z,
        Real.sin y * (Real.cos x * Real.cos z) + Real.sin x * Real.sin z;
      Real.cos y * Real.sin z, Real.sin y * (Real.sin x * Real.sin z) + Real.cos x * Real.cos z,
        Real.sin y * (Real.cos x * Real.sin z) - Real.sin x * Real.cos z;
      -Real.sin y, Real.cos y * Real.sin x, Real.cos y * Real.cos x] p q
  · rw [eulerCore_true]
    simp only [eulerCore, if_true]
    exact writeAll_perm σ hσ !![Real.cos y, Real.sin y * Real.sin x, Real.sin y * Real.cos x;
      Real.sin y * Real.sin z, -Real.cos y * (Real.sin x * Real.sin z) + Real.cos x * Real.cos z,
        -Real.cos y * (Real.cos x * Real.sin z) - Real.sin x * Real.cos z;
      -Real.sin y * Real.cos z, Real.cos y * (Real.sin x * Real.cos z) + Real.cos x * Real.sin z,
        Real.cos y * (Real.cos x * Real.cos z) - Real.sin x * Real.sin z] p q

/-- the angles that are handed to the core -/
def coreAngles (t : AxTuple) (x y z : ℝ) : ℝ × ℝ × ℝ :=
  let (x, z) := if t.frame ≠ 0 then (z, x) else (x, z)
  if t.parity ≠ 0 then (-x, -y, -z) else (x, y, z)

theorem eulerMatrixT_eq (t : AxTuple) (x y z : ℝ) : eulerMatrixT t x y z = homog (eulerCore (t.rep ≠ 0) (permOf t 0) (permOf t 1) (permOf t 2)
    (coreAngles t x y z).1 (coreAngles t x y z).2.1 (coreAngles t x y z).2.2) := by
  unfold eulerMatrixT coreAngles
  simp only
  by_cases hf : t.frame = 0 <;> by_cases hp : t.parity = 0 <;> simp only [hf, hp, ne_eq, not_true_eq_false, not_false_eq_true, if_true, if_false] <;> rfl

theorem eulerFromMatrixT_core (t : AxTuple) (M : Matrix (Fin 4) (Fin 4) ℝ) :
    coreAngles t (eulerFromMatrixT t M).1 (eulerFromMatrixT t M).2.1 (eulerFromMatrixT t M).2.2
      = eulerFromCore (t.rep ≠ 0) 0 1 2 ((upper M).submatrix (permOf t) (permOf t)) := by
  have e : eulerFromCore (t.rep ≠ 0) (permOf t 0) (permOf t 1) (permOf t 2) (upper M)
      = eulerFromCore (t.rep ≠ 0) 0 1 2 ((upper M).submatrix (permOf t) (permOf t)) := rfl
  rw [← e]
  unfold eulerFromMatrixT coreAngles
  simp only
  by_cases hf : t.frame = 0 <;> by_cases hp : t.parity = 0 <;>
    simp only [hf, hp, ne_eq, not_true_eq_false, not_false_eq_true, if_true, if_false, neg_neg] <;> rfl

theorem axisRot_neg_perm : ∀ (static : Bool) (a b c : Fin 3), a ≠ b → b ≠ c → ∀ (p : Fin 3) (θ : ℝ),
    (axisRot (permOf (tupleOf static a b c) p) θ).submatrix (permOf (tupleOf static a b c)) (permOf (tupleOf static a b c))
      = axisRot p (if (tupleOf static a b c).parity ≠ 0 then -θ else θ) := by
  intro static a b c hab hbc p θ
  have hσ : ∃ σ : Fin 3 → Fin 3, permOf (tupleOf static a b c) = σ ∧
      (((tupleOf static a b c).parity = 0 ∧ (σ = ![0, 1, 2] ∨ σ = ![1, 2, 0] ∨ σ = ![2, 0, 1])) ∨
       ((tupleOf static a b c).parity = 1 ∧ (σ = ![0, 2, 1] ∨ σ = ![1, 0, 2] ∨ σ = ![2, 1, 0]))) := by
    refine ⟨_, rfl, ?_⟩
    simp only [funext_iff]
    revert static a b c
    decide
  obtain ⟨σ, e, h⟩ := hσ
  rw [e]
  rcases h with ⟨hp, rfl | rfl | rfl⟩ | ⟨hp, rfl | rfl | rfl⟩ <;> rw [hp] <;> ext u v <;>
    fin_cases p <;> fin_cases u <;> fin_cases v <;> simp [axisRot]

theorem eulerCore_product (x y z : ℝ) : eulerCore false 0 1 2 x y z = axisRot 2 z * axisRot 1 y * axisRot 0 x ∧
    eulerCore true 0 1 2 x y z = axisRot 0 z * axisRot 1 y * axisRot 0 x := by
  constructor
  · rw [eulerCore_false]
    ext p q
    rw [Matrix.mul_apply, Fin.sum_univ_three]
    simp only [Matrix.mul_apply, Fin.sum_univ_three]
    fin_cases p <;> fin_cases q <;> simp [axisRot] <;> ring
  · rw [eulerCore_true]
    ext p q
    rw [Matrix.mul_apply, Fin.sum_univ_three]
    simp only [Matrix.mul_apply, Fin.sum_univ_three]
    fin_cases p <;> fin_cases q <;> simp [axisRot] <;> ring

theorem eulerCore_rep (rep : Bool) (x y z : ℝ) :
    eulerCore rep 0 1 2 x y z = axisRot (if rep then 0 else 2) z * axisRot 1 y * axisRot 0 x := by
  cases rep
  · exact (eulerCore_product x y z).1
  · exact (eulerCore_product x y z).2

theorem perm_letters : ∀ (static : Bool) (a b c : Fin 3), a ≠ b → b ≠ c →
    permOf (tupleOf static a b c) 1 = b ∧ permOf (tupleOf static a b c) 0 = (if static then a else c) ∧
    permOf (tupleOf static a b c) (if (tupleOf static a b c).rep ≠ 0 then 0 else 2) = (if static then c else a) := by
  decide

/-- the core matrix for a valid sequence is the product of the three rotations -/
theorem core_threeRot (static : Bool) (a b c : Fin 3) (hab : a ≠ b) (hbc : b ≠ c) (x y z : ℝ) :
    let t := tupleOf static a b c
    eulerCore (t.rep ≠ 0) (permOf t 0) (permOf t 1) (permOf t 2) (coreAngles t x y z).1 (coreAngles t x y z).2.1 (coreAngles t x y z).2.2
      = threeRot static a b c x y z := by
  intro t
  obtain ⟨h1, h0, h2⟩ := perm_letters static a b c hab hbc
  have hbij := permOf_bij static a b c hab hbc
  let σ : Fin 3 ≃ Fin 3 := Equiv.ofBijective _ hbij
  have hsub : ∀ (p : Fin 3) (θ : ℝ), (axisRot (permOf t p) θ).submatrix σ σ = axisRot p (if t.parity ≠ 0 then -θ else θ) :=
    axisRot_neg_perm static a b c hab hbc
  have hR : threeRot static a b c x y z = axisRot (permOf t (if t.rep ≠ 0 then 0 else 2)) (if static then z else x) * axisRot (permOf t 1) y
      * axisRot (permOf t 0) (if static then x else z) := by
    rw [show permOf t (if t.rep ≠ 0 then 0 else 2) = _ from h2, show permOf t 1 = _ from h1, show permOf t 0 = _ from h0]
    cases static <;> rfl
  have hang : coreAngles t x y z = (if t.parity ≠ 0 then -(if static then x else z) else (if static then x else z),
      if t.parity ≠ 0 then -y else y, if t.parity ≠ 0 then -(if static then z else x) else (if static then z else x)) := by
    unfold coreAngles
    have : t.frame = if static then 0 else 1 := rfl
    rw [this]
    cases static <;> simp only [Bool.false_eq_true, if_false, if_true, ne_eq, one_ne_zero, not_false_eq_true, not_true_eq_false] <;>
      split_ifs <;> rfl
  have key : (eulerCore (t.rep ≠ 0) (permOf t 0) (permOf t 1) (permOf t 2) (coreAngles t x y z).1 (coreAngles t x y z).2.1
      (coreAngles t x y z).2.2).submatrix σ σ = (threeRot static a b c x y z).submatrix σ σ := by
    have e : (eulerCore (t.rep ≠ 0) (permOf t 0) (permOf t 1) (permOf t 2) (coreAngles t x y z).1 (coreAngles t x y z).2.1
        (coreAngles t x y z).2.2).submatrix σ σ
        = eulerCore (t.rep ≠ 0) 0 1 2 (coreAngles t x y z).1 (coreAngles t x y z).2.1 (coreAngles t x y z).2.2 := by
      ext p q
      exact eulerCore_perm (t.rep ≠ 0) (permOf t) hbij.1 _ _ _ p q
    rw [e, eulerCore_rep, hR, ← Matrix.submatrix_mul_equiv _ _ _ σ _, ← Matrix.submatrix_mul_equiv _ _ _ σ _, hsub, hsub, hsub, hang]
    simp only [decide_eq_true_eq]
  ext p q
  obtain ⟨p', rfl⟩ := σ.surjective p
  obtain ⟨q', rfl⟩ := σ.surjective q
  exact congrFun (congrFun key p') q'

/-- C67: for each of the 24 sequences, given by name or as tuple, `euler_matrix` gives the product of the rotations by the three
angles about the three axes of the name. -/
theorem c67_product (static : Bool) (a b c : Fin 3) (hab : a ≠ b) (hbc : b ≠ c) (x y z : ℝ) :
    ∃ M, eulerMatrix x y z (.str (axesName static a b c)) = .ok M ∧ eulerMatrix x y z (.tup (tupleOf static a b c)) = .ok M ∧
      Homog M (threeRot static a b c x y z) := by
  refine ⟨eulerMatrixT (tupleOf static a b c) x y z, ?_, ?_, ?_⟩
  · simp only [eulerMatrix, axTuple_name false static a b c hab hbc]
  · simp only [eulerMatrix, axTuple_tup false static a b c hab hbc]
  · rw [eulerMatrixT_eq, core_threeRot static a b c hab hbc]
    exact homog_spec _

/-- C67: whatever the angles and the axes, the result is a proper rotation. -/
theorem c67_rotation (axes : AxArg) (x y z : ℝ) (M : Matrix (Fin 4) (Fin 4) ℝ) (h : eulerMatrix x y z axes = .ok M) :
    ∃ R, Homog M R ∧ IsRotation R := by
  unfold eulerMatrix at h
  split at h
  · cases h
  · rename_i t ht
    obtain ⟨static, a, b, c, hab, hbc, rfl⟩ := axTuple_ok _ _ _ ht
    obtain rfl := Except.ok.inj h
    refine ⟨threeRot static a b c x y z, ?_, threeRot_isRotation ..⟩
    rw [eulerMatrixT_eq, core_threeRot static a b c hab hbc]
    exact homog_spec _

/-- C67: exactly the 24 names and tuples are accepted. -/
theorem c67_axes (axes : AxArg) (x y z : ℝ) : (∃ M, eulerMatrix x y z axes = .ok M) ↔
    ∃ static a b c, a ≠ b ∧ b ≠ c ∧ (axes = .str (axesName static a b c) ∨ axes = .tup (tupleOf static a b c)) := by
  constructor
  · rintro ⟨M, h⟩
    unfold eulerMatrix at h
    split at h
    · cases h
    · rename_i t ht
      cases axes with
      | tup t' =>
        obtain ⟨static, a, b, c, hab, hbc, rfl⟩ := axTuple_ok _ _ _ ht
        simp only [axTuple] at ht
        split at ht
        · obtain e := Except.ok.inj ht
          exact ⟨static, a, b, c, hab, hbc, Or.inr (by rw [e])⟩
        · cases ht
      | str s =>
        simp only [axTuple, Bool.false_eq_true, if_false] at ht
        split at ht
        · rename_i t' hl
          have hk : s ∈ axes2tuple.map Prod.fst := by
            have : ∀ (l : List (List Char × AxTuple)), l.lookup s = some t' → s ∈ l.map Prod.fst := by
              intro l
              induction l with
              | nil => intro h; cases h
              | cons p l ih =>
                intro h
                rw [List.lookup_cons] at h
                split at h
                · rename_i hp
                  rw [List.map_cons, eq_of_beq hp]
                  exact List.mem_cons_self
                · exact List.mem_cons_of_mem _ (ih h)
            exact this _ hl
          have all : ∀ s ∈ axes2tuple.map Prod.fst, ∃ static a b c, a ≠ b ∧ b ≠ c ∧ s = axesName static a b c := by decide
          obtain ⟨static, a, b, c, hab, hbc, rfl⟩ := all s hk
          exact ⟨static, a, b, c, hab, hbc, Or.inl rfl⟩
        · cases ht
  · rintro ⟨static, a, b, c, hab, hbc, rfl | rfl⟩
    · obtain ⟨M, h, -, -⟩ := c67_product static a b c hab hbc x y z
      exact ⟨M, h⟩
    · obtain ⟨M, -, h, -⟩ := c67_product static a b c hab hbc x y z
      exact ⟨M, h⟩

/-- the round trip of the tuple version -/
theorem roundtrip_core (static : Bool) (a b c : Fin 3) (hab : a ≠ b) (hbc : b ≠ c) (M : Matrix (Fin 4) (Fin 4) ℝ)
    (R : Matrix (Fin 3) (Fin 3) ℝ) (hM : Homog M R) (hR : IsRotation R) :
    let t := tupleOf static a b c
    let v := eulerFromMatrixT t M
    let g := gap (t.rep ≠ 0) (R.submatrix (permOf t) (permOf t))
    Homog (eulerMatrixT t v.1 v.2.1 v.2.2) (threeRot static a b c v.1 v.2.1 v.2.2) ∧
    (tEps < g → threeRot static a b c v.1 v.2.1 v.2.2 = R) ∧
    (g ≤ tEps → ∀ p q, |threeRot static a b c v.1 v.2.1 v.2.2 p q - R p q| ≤ 2 * g) := by
  intro t v g
  have hbij := permOf_bij static a b c hab hbc
  let σ : Fin 3 ≃ Fin 3 := Equiv.ofBijective _ hbij
  have hup : upper M = R := by ext p q; exact hM.1 p q
  have hN : IsRotation (R.submatrix (permOf t) (permOf t)) := isRotation_relabel hR σ
  have hcore := core_threeRot static a b c hab hbc v.1 v.2.1 v.2.2
  simp only at hcore
  have hfrom : coreAngles t v.1 v.2.1 v.2.2 = eulerFromCore (t.rep ≠ 0) 0 1 2 (R.submatrix (permOf t) (permOf t)) := by
    rw [← hup]; exact eulerFromMatrixT_core t M
  have hent : ∀ p q, threeRot static a b c v.1 v.2.1 v.2.2 (σ p) (σ q) = eulerCore (t.rep ≠ 0) 0 1 2
      (eulerFromCore (t.rep ≠ 0) 0 1 2 (R.submatrix (permOf t) (permOf t))).1
      (eulerFromCore (t.rep ≠ 0) 0 1 2 (R.submatrix (permOf t) (permOf t))).2.1
      (eulerFromCore (t.rep ≠ 0) 0 1 2 (R.submatrix (permOf t) (permOf t))).2.2 p q := by
    intro p q
    rw [← hcore, ← hfrom]
    exact eulerCore_perm (t.rep ≠ 0) (permOf t) hbij.1 _ _ _ p q
  refine ⟨?_, ?_, ?_⟩
  · rw [eulerMatrixT_eq, hcore]
    exact homog_spec _
  · intro hg
    ext p q
    obtain ⟨p', rfl⟩ := σ.surjective p
    obtain ⟨q', rfl⟩ := σ.surjective q
    rw [hent]
    by_cases hr : t.rep ≠ 0
    · simp only [hr, not_false_eq_true, decide_true, ne_eq] at hg ⊢
      exact congrFun (congrFun (core_exact_true hN (by simpa only [g, hr, not_false_eq_true, decide_true, ne_eq] using hg)) p') q'
    · simp only [hr, decide_false] at hg ⊢
      exact congrFun (congrFun (core_exact_false hN (by simpa only [g, hr, decide_false] using hg)) p') q'
  · intro hg p q
    obtain ⟨p', rfl⟩ := σ.surjective p
    obtain ⟨q', rfl⟩ := σ.surjective q
    rw [hent]
    by_cases hr : t.rep ≠ 0
    · have hg' : g = gap true (R.submatrix (permOf t) (permOf t)) := by simp only [g, hr, not_false_eq_true, decide_true, ne_eq]
      rw [hg'] at hg ⊢
      simp only [hr, not_false_eq_true, decide_true, ne_eq]
      exact core_close_true hN hg p' q'
    · have hg' : g = gap false (R.submatrix (permOf t) (permOf t)) := by simp only [g, hr, decide_false]
      rw [hg'] at hg ⊢
      simp only [hr, decide_false]
      exact core_close_false hN hg p' q'

/-- C67: the angles that `euler_from_matrix` gives for a rotation matrix give the matrix back, up to twice `_EPS` in each entry, for
every rotation and each of the 24 sequences. -/
theorem c67_roundtrip_close (static : Bool) (a b c : Fin 3) (hab : a ≠ b) (hbc : b ≠ c) (M : Matrix (Fin 4) (Fin 4) ℝ)
    (R : Matrix (Fin 3) (Fin 3) ℝ) (hM : Homog M R) (hR : IsRotation R) :
    ∃ x y z M' R', eulerFromMatrix M (.str (axesName static a b c)) = .ok (x, y, z) ∧
      eulerMatrix x y z (.str (axesName static a b c)) = .ok M' ∧ Homog M' R' ∧ ∀ p q, |R' p q - R p q| ≤ 2 * tEps := by
  obtain ⟨h1, h2, h3⟩ := roundtrip_core static a b c hab hbc M R hM hR
  refine ⟨(eulerFromMatrixT (tupleOf static a b c) M).1, (eulerFromMatrixT (tupleOf static a b c) M).2.1,
    (eulerFromMatrixT (tupleOf static a b c) M).2.2, _, _, ?_, ?_, h1, ?_⟩
  · simp only [eulerFromMatrix, axTuple_name true static a b c hab hbc]
  · simp only [eulerMatrix, axTuple_name false static a b c hab hbc]
  · intro p q
    rcases lt_or_ge tEps (gap ((tupleOf static a b c).rep ≠ 0) (R.submatrix (permOf (tupleOf static a b c)) (permOf (tupleOf static a b c))))
      with hg | hg
    · rw [h2 hg, sub_self, abs_zero]
      unfold tEps; positivity
    · exact (h3 hg p q).trans (by linarith)

/-- the gap of a product of rotations is the sine or cosine of the middle angle -/
theorem gap_threeRot (static : Bool) (a b c : Fin 3) (hab : a ≠ b) (hbc : b ≠ c) (x y z : ℝ) :
    let t := tupleOf static a b c
    gap (t.rep ≠ 0) ((threeRot static a b c x y z).submatrix (permOf t) (permOf t)) = if a = c then |Real.sin y| else |Real.cos y| := by
  intro t
  have hbij := permOf_bij static a b c hab hbc
  have hcore := core_threeRot static a b c hab hbc x y z
  simp only at hcore
  have e : (threeRot static a b c x y z).submatrix (permOf t) (permOf t)
      = eulerCore (t.rep ≠ 0) 0 1 2 (coreAngles t x y z).1 (coreAngles t x y z).2.1 (coreAngles t x y z).2.2 := by
    rw [← hcore]
    ext p q
    exact eulerCore_perm (t.rep ≠ 0) (permOf t) hbij.1 _ _ _ p q
  have hy : (coreAngles t x y z).2.1 = y ∨ (coreAngles t x y z).2.1 = -y := by
    unfold coreAngles
    simp only
    split_ifs <;> simp
  rw [e]
  have hrep : t.rep = if a = c then 1 else 0 := rfl
  by_cases hac : a = c
  · have hr : t.rep ≠ 0 := by rw [hrep, if_pos hac]; decide
    simp only [hr, not_false_eq_true, decide_true, ne_eq, if_pos hac, gap, if_true]
    rw [eulerCore_true]
    simp only [Matrix.of_apply, Matrix.cons_val', Matrix.cons_val_zero, Matrix.cons_val_one, Matrix.cons_val]
    rw [show ∀ s u v : ℝ, s * u * (s * u) + s * v * (s * v) = s ^ 2 * (u ^ 2 + v ^ 2) by intros; ring, Real.sin_sq_add_cos_sq, mul_one,
      Real.sqrt_sq_eq_abs]
    rcases hy with h | h <;> rw [h]
    rw [Real.sin_neg, abs_neg]
  · have hr : ¬ t.rep ≠ 0 := by rw [hrep, if_neg hac]; decide
    simp only [hr, decide_false, if_neg hac, gap, Bool.false_eq_true, if_false]
    rw [eulerCore_false]
    simp only [Matrix.of_apply, Matrix.cons_val', Matrix.cons_val_zero, Matrix.cons_val_one, Matrix.cons_val]
    rw [show ∀ s u v : ℝ, s * u * (s * u) + s * v * (s * v) = s ^ 2 * (u ^ 2 + v ^ 2) by intros; ring, Real.cos_sq_add_sin_sq, mul_one,
      Real.sqrt_sq_eq_abs]
    rcases hy with h | h <;> rw [h]
    rw [Real.cos_neg]

/-- C67: the round trip is exact unless the middle rotation is within `_EPS` of a degenerate one without being degenerate. -/
theorem c67_roundtrip (static : Bool) (a b c : Fin 3) (hab : a ≠ b) (hbc : b ≠ c) (x y z : ℝ) (hreg : Regular a c y)
    (M : Matrix (Fin 4) (Fin 4) ℝ) (h : eulerMatrix x y z (.str (axesName static a b c)) = .ok M) :
    ∃ x' y' z', eulerFromMatrix M (.str (axesName static a b c)) = .ok (x', y', z') ∧
      eulerMatrix x' y' z' (.str (axesName static a b c)) = .ok M := by
  obtain ⟨M₀, h₀, -, hM⟩ := c67_product static a b c hab hbc x y z
  rw [h] at h₀
  obtain rfl := Except.ok.inj h₀
  obtain ⟨h1, h2, h3⟩ := roundtrip_core static a b c hab hbc M _ hM (threeRot_isRotation static a b c x y z)
  have hgap := gap_threeRot static a b c hab hbc x y z
  simp only at hgap
  refine ⟨(eulerFromMatrixT (tupleOf static a b c) M).1, (eulerFromMatrixT (tupleOf static a b c) M).2.1,
    (eulerFromMatrixT (tupleOf static a b c) M).2.2, ?_, ?_⟩
  · simp only [eulerFromMatrix, axTuple_name true static a b c hab hbc]
  · simp only [eulerMatrix, axTuple_name false static a b c hab hbc]
    refine congrArg Except.ok (Homog.unique (R := threeRot static a b c x y z) ?_ hM)
    rw [hgap] at h2 h3
    suffices hE : threeRot static a b c (eulerFromMatrixT (tupleOf static a b c) M).1 (eulerFromMatrixT (tupleOf static a b c) M).2.1
        (eulerFromMatrixT (tupleOf static a b c) M).2.2 = threeRot static a b c x y z by rw [hE] at h1; exact h1
    have zero : (if a = c then |Real.sin y| else |Real.cos y|) = 0 → threeRot static a b c (eulerFromMatrixT (tupleOf static a b c) M).1
        (eulerFromMatrixT (tupleOf static a b c) M).2.1 (eulerFromMatrixT (tupleOf static a b c) M).2.2 = threeRot static a b c x y z := by
      intro hz
      ext p q
      rw [hz] at h3
      have := h3 (by unfold tEps; positivity) p q
      rw [mul_zero] at this
      exact sub_eq_zero.1 (abs_nonpos_iff.1 this)
    unfold Regular at hreg
    by_cases hac : a = c
    · rw [if_pos hac] at hreg h2 zero
      rcases hreg with hr | hr
      · exact h2 hr
      · exact zero (by rw [hr, abs_zero])
    · rw [if_neg hac] at hreg h2 zero
      rcases hreg with hr | hr
      · exact h2 hr
      · exact zero (by rw [hr, abs_zero])

/-- a quarter turn about z in the default sequence; and the middle angle 1 is regular for a repeated axis -/
example : ∃ M, eulerMatrix 0 0 (Real.pi / 2) (.str ['s', 'x', 'y', 'z']) = .ok M ∧ M 0 1 = -1 ∧ M 1 0 = 1 ∧ M 2 2 = 1 := by
  obtain ⟨M, h, -, hM⟩ := c67_product true 0 1 2 (by decide) (by decide) 0 0 (Real.pi / 2)
  refine ⟨M, h, ?_, ?_, ?_⟩
  · have := hM.1 0 1; rw [show M 0 1 = _ from this]
    simp [threeRot, axisRot, Matrix.mul_apply, Fin.sum_univ_three]
  · have := hM.1 1 0; rw [show M 1 0 = _ from this]
    simp [threeRot, axisRot, Matrix.mul_apply, Fin.sum_univ_three]
  · have := hM.1 2 2; rw [show M 2 2 = _ from this]
    simp [threeRot, axisRot, Matrix.mul_apply, Fin.sum_univ_three]

example : Regular 2 2 (Real.pi / 2) ∧ Regular 0 2 0 ∧ Regular 0 2 (Real.pi / 2) := by
  refine ⟨?_, ?_, ?_⟩ <;> simp [Regular, tEps] <;> norm_num

end Electrode
