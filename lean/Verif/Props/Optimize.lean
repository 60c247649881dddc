import Verif.Props.Constraints
import Mathlib.LinearAlgebra.Matrix.DotProduct
import Mathlib.LinearAlgebra.Matrix.ToLin
import Mathlib.Algebra.Order.Star.Real
import Mathlib.LinearAlgebra.Basis.VectorSpace

/-
C38 and C39: `optimize` and `shims`.
-/
namespace Electrode
open Spec

namespace Spec
/-- the functional and the value asked for by one constraint, if it has a value -/
noncomputable def asked (s : List Elec) : Ctr → Option (List ℝ × ℝ)
  | .range .. => none
  | .single o =>
    match o.sv.value, o.get s with
    | some v, .ok (some c) => some (c, v)
    | _, _ => none

/-- the functionals and the values asked for, in order -/
noncomputable def objectives (s : List Elec) (ctrs : List Ctr) : List (List ℝ × ℝ) := ctrs.filterMap (asked s)

/-- `p` is a pattern of `n` entries that fulfils the constraints and no other such pattern has a larger `Σ g_e p_e` -/
def Optimal (g : List ℝ) (ctrs : List LinCtr) (n : Nat) (p : List ℝ) : Prop :=
  p.length = n ∧ Fulfils ctrs p ∧ ∀ q : List ℝ, q.length = n → Fulfils ctrs q → pair g q ≤ pair g p

/-- what is assumed of the solver -/
def Correct (solver : Solver) : Prop := ∀ g ctrs n p, solver g ctrs n = some p → Optimal g ctrs n p

/-- product of a matrix, given by its rows, and a vector -/
def apply (B : List (List ℝ)) (u : List ℝ) : List ℝ := B.map fun r => pair r u

/-- What is assumed of `numpy.linalg.pinv` for a matrix of at least one row, all of length `n`: the shape of the
result, `B P B = B`, and that the columns of `P` are combinations of the rows of `B`. -/
def IsPinv (pinv : Pinv) : Prop :=
  ∀ (B : List (List ℝ)) (n : Nat), B ≠ [] → (∀ r ∈ B, r.length = n) →
    (pinv B).length = n ∧ (∀ r ∈ pinv B, r.length = B.length) ∧
    (∀ u : List ℝ, u.length = n → apply B (apply (pinv B) (apply B u)) = apply B u) ∧
    ∀ b : List ℝ, b.length = B.length → ∃ y : List ℝ, y.length = B.length ∧
      ∀ q : List ℝ, q.length = n → pair (apply (pinv B) b) q = pair y (apply B q)
end Spec

/-! ### the assumption about `pinv` can be met -/

theorem exists_ginv {m n : Type} [Fintype m] [Fintype n] [DecidableEq m] [DecidableEq n] (A : Matrix m n ℝ) :
    ∃ Q : Matrix n m ℝ, A * Q * A = A := by
  obtain ⟨r, hr⟩ := (A.toLin').rangeRestrict.exists_rightInverse_of_surjective (LinearMap.range_rangeRestrict _)
  obtain ⟨g, hg⟩ := r.exists_extend
  refine ⟨LinearMap.toMatrix' g, ?_⟩
  apply Matrix.toLin'.injective
  rw [Matrix.toLin'_mul, Matrix.toLin'_mul, Matrix.toLin'_toMatrix']
  refine LinearMap.ext fun x => ?_
  have h1 : g (A.toLin' x) = r (A.toLin'.rangeRestrict x) := by
    rw [← hg]; rfl
  have h2 : A.toLin'.rangeRestrict (r (A.toLin'.rangeRestrict x)) = A.toLin'.rangeRestrict x := by
    exact LinearMap.congr_fun hr (A.toLin'.rangeRestrict x)
  have h3 := congrArg Subtype.val h2
  change A.toLin' (g (A.toLin' x)) = A.toLin' x
  rw [h1]
  exact h3

theorem exists_pinv_matrix {m n : Type} [Fintype m] [Fintype n] [DecidableEq m] [DecidableEq n] (A : Matrix m n ℝ) :
    ∃ Q : Matrix m m ℝ, A * (A.transpose * Q) * A = A := by
  obtain ⟨Q, hQ⟩ := exists_ginv (A * A.transpose)
  refine ⟨Q, ?_⟩
  have h : (A * A.transpose * Q - 1) * A * ((A * A.transpose * Q - 1) * A).transpose = 0 := by
    have : (A * A.transpose * Q - 1) * (A * A.transpose) = 0 := by rw [sub_mul, hQ, one_mul, sub_self]
    rw [Matrix.transpose_mul, ← Matrix.mul_assoc, Matrix.mul_assoc _ A, this, Matrix.zero_mul]
  have h2 : (A * A.transpose * Q - 1) * A = 0 := by
    rw [← Matrix.conjTranspose_eq_transpose_of_trivial ((A * A.transpose * Q - 1) * A)] at h
    exact Matrix.self_mul_conjTranspose_eq_zero.1 h
  rw [Matrix.sub_mul, Matrix.one_mul, sub_eq_zero] at h2
  rw [← Matrix.mul_assoc]
  exact h2

theorem pair_ofFn {n : Nat} (a b : Fin n → ℝ) : pair (List.ofFn a) (List.ofFn b) = ∑ i, a i * b i := by
  unfold pair
  rw [← List.sum_ofFn]
  congr 1
  apply List.ext_getElem <;> simp

/-- there is a function with the properties assumed of `pinv` -/
theorem exists_isPinv : ∃ pinv : Pinv, IsPinv pinv := by
  have h : ∀ B : List (List ℝ), ∃ P : List (List ℝ), ∀ n : Nat, B ≠ [] → (∀ r ∈ B, r.length = n) →
    P.length = n ∧ (∀ r ∈ P, r.length = B.length) ∧
    (∀ u : List ℝ, u.length = n → apply B (apply P (apply B u)) = apply B u) ∧
    ∀ b : List ℝ, b.length = B.length → ∃ y : List ℝ, y.length = B.length ∧
      ∀ q : List ℝ, q.length = n → pair (apply P b) q = pair y (apply B q) := by
    intro B
    by_cases hB : B = []
    · exact ⟨[], fun n hn => absurd hB hn⟩
    by_cases hn : ∃ n, ∀ r ∈ B, r.length = n
    swap
    · exact ⟨[], fun n _ h => absurd ⟨n, h⟩ hn⟩
    obtain ⟨n, hn⟩ := hn
    obtain ⟨m, hm⟩ : ∃ m, m = B.length := ⟨_, rfl⟩
    let A : Matrix (Fin m) (Fin n) ℝ := fun i j => (B.getD i []).getD j 0
    have hBA : B = List.ofFn fun i => List.ofFn (A i) := by
      apply List.ext_getElem
      · simp [hm]
      · intro i h1 h2
        have hl := hn B[i] (List.getElem_mem h1)
        apply List.ext_getElem
        · simp [hl]
        · intro j h3 h4
          simp [A, h1, h3]
    obtain ⟨Q, hQ⟩ := exists_pinv_matrix A
    have hv : ∀ {k : Nat} (u : List ℝ), u.length = k → ∃ f : Fin k → ℝ, u = List.ofFn f := by
      intro k u hu
      subst hu
      exact ⟨fun i => u[i], by simp⟩
    have hap : ∀ {k l : Nat} (M : Matrix (Fin k) (Fin l) ℝ) (u : Fin l → ℝ),
        apply (List.ofFn fun i => List.ofFn (M i)) (List.ofFn u) = List.ofFn (M.mulVec u) := by
      intro k l M u
      unfold apply
      rw [List.map_ofFn]
      congr 1
      funext i
      exact pair_ofFn _ _
    refine ⟨List.ofFn fun i => List.ofFn ((A.transpose * Q) i), fun n' _ hn' => ?_⟩
    have : n' = n := by
      obtain ⟨r, hr⟩ := List.exists_mem_of_ne_nil B hB
      rw [← hn r hr, hn' r hr]
    subst this
    refine ⟨by simp, ?_, ?_, ?_⟩
    · intro r hr
      rw [List.mem_ofFn] at hr
      obtain ⟨i, rfl⟩ := hr
      simp [hm]
    · intro u hu
      obtain ⟨f, rfl⟩ := hv u hu
      rw [hBA, hap, hap, hap, Matrix.mulVec_mulVec, Matrix.mulVec_mulVec, hQ]
    · intro b hb
      rw [← hm] at hb
      obtain ⟨f, rfl⟩ := hv b hb
      refine ⟨List.ofFn (Q.mulVec f), by simp [hm], fun q hq => ?_⟩
      obtain ⟨g, rfl⟩ := hv q hq
      rw [hBA, hap, hap, pair_ofFn, pair_ofFn, ← Matrix.mulVec_mulVec]
      change (A.transpose.mulVec (Q.mulVec f)) ⬝ᵥ g = Q.mulVec f ⬝ᵥ A.mulVec g
      rw [Matrix.mulVec_transpose, Matrix.dotProduct_mulVec]
  choose pinv hpinv using h
  exact ⟨pinv, fun B n h1 h2 => hpinv B n h1 h2⟩

theorem dotL_eq (c p : List ℝ) : dotL c p = pair c p := rfl
theorem matVec_eq (B : List (List ℝ)) (v : List ℝ) : matVec B v = apply B v := rfl

theorem pair_comm (a b : List ℝ) : pair a b = pair b a := by
  unfold pair
  induction a generalizing b with
  | nil => simp
  | cons x a ih =>
    cases b with
    | nil => simp
    | cons y b => simp only [List.zipWith_cons_cons, List.sum_cons, ih, mul_comm]

theorem potGet_length (s : List Elec) (x : V3) (order : Nat) (idx : Sel) (rot : Option (Matrix Axis Axis ℝ)) (c : List ℝ)
    (h : potGet s x order idx rot = .ok c) : c.length = s.length := by
  unfold potGet at h
  cases h1 : individualPotential s [x] order with
  | error e => simp [h1] at h
  | ok ind =>
    simp only [h1] at h
    cases h2 : pySeq (ind.map fun rows => rowInFrame order rot (rows.getD 0 [])) with
    | error e => rw [h2] at h; cases h
    | ok c2 =>
      simp only [h2] at h
      rw [(pySeq_map_inv _ _ _ h).1, (pySeq_map_inv _ _ _ h2).1]
      exact (pySeq_map_inv _ _ _ h1).1

mutual
theorem get_length (s : List Elec) : (o : SVC) → ∀ c, SVC.get s o = .ok (some c) → c.length = s.length
  | .pot x order idx rot _, c, h => by
    simp only [SVC.get] at h
    cases h1 : potGet s x order idx rot with
    | error e => simp [h1, Except.map] at h
    | ok d =>
      simp only [h1, Except.map, Except.ok.injEq, Option.some.injEq] at h
      subst h
      exact potGet_length s x order idx rot d h1
  | .multi comps _, c, h => by
    simp only [SVC.get] at h
    exact getAll_length s comps none (by simp) c h
theorem getAll_length (s : List Elec) : (l : List SVC) → ∀ acc : Option (List ℝ), (∀ c, acc = some c → c.length = s.length) →
    ∀ c, SVC.getAll s l acc = .ok (some c) → c.length = s.length
  | [], acc, hacc, c, h => by
    simp only [SVC.getAll, Except.ok.injEq] at h
    exact hacc c h
  | o :: l, acc, hacc, c, h => by
    simp only [SVC.getAll] at h
    cases hv : o.sv.value with
    | none =>
      simp only [hv] at h
      exact getAll_length s l acc hacc c h
    | some w =>
      simp only [hv] at h
      cases hg : SVC.get s o with
      | error e => simp [hg] at h
      | ok ci =>
        simp only [hg] at h
        refine getAll_length s l _ ?_ c h
        intro c' hc'
        cases ci with
        | none =>
          cases acc with
          | none => simp [addCoef] at hc'
          | some a => simp [addCoef] at hc'; subst hc'; exact hacc a rfl
        | some d =>
          have hd := get_length s o d hg
          cases acc with
          | none => simp [addCoef] at hc'; subst hc'; simpa using hd
          | some a => simp [addCoef] at hc'; subst hc'; simp [hacc a rfl, hd]
end

theorem objectives_length (s : List Elec) (ctrs : List Ctr) : ∀ q ∈ objectives s ctrs, q.1.length = s.length := by
  intro q hq
  unfold objectives at hq
  rw [List.mem_filterMap] at hq
  obtain ⟨ci, _, hci⟩ := hq
  cases ci with
  | range => simp [asked] at hci
  | single o =>
    simp only [asked] at hci
    split at hci
    · next v c hv hg =>
      injection hci with hci
      subst hci
      exact get_length s o c hg
    · cases hci

/-- the loop of `optimize` collects the objectives and all constraints -/
theorem collect_eq (s : List Elec) (ctrs : List Ctr) (obj : List (Option (List ℝ) × ℝ)) (lin : List LinCtr)
    (h : collect s ctrs = .ok (obj, lin)) (B : List (List ℝ))
    (hB : pySeq (obj.map fun o => match o.1 with | some c => Except.ok c | none => Except.error PyErr.valueError) = .ok B) :
    B = (objectives s ctrs).map (·.1) ∧ obj.map (·.2) = (objectives s ctrs).map (·.2) ∧
      ∃ ls, pySeq (ctrs.map (Ctr.constraints s)) = .ok ls ∧ lin = ls.flatten := by
  induction ctrs generalizing obj lin B with
  | nil =>
    simp only [collect, Except.ok.injEq, Prod.mk.injEq] at h
    obtain ⟨rfl, rfl⟩ := h
    simp only [List.map_nil, pySeq, Except.ok.injEq] at hB
    subst hB
    exact ⟨rfl, rfl, [], rfl, rfl⟩
  | cons ci ctrs ih =>
    simp only [collect] at h
    cases ho : ci.objective s with
    | error e => simp [ho] at h
    | ok o =>
      simp only [ho] at h
      cases hc : ci.constraints s with
      | error e => simp [hc] at h
      | ok c =>
        simp only [hc] at h
        cases hcol : collect s ctrs with
        | error e => simp [hcol] at h
        | ok r =>
          obtain ⟨os, cs⟩ := r
          simp only [hcol, Except.ok.injEq, Prod.mk.injEq] at h
          obtain ⟨rfl, rfl⟩ := h
          have hcase : (o = [] ∧ asked s ci = none) ∨ ∃ c' v, o = [(c', v)] ∧ ∀ d, c' = some d → asked s ci = some (d, v) := by
            cases ci with
            | range a b i =>
              simp only [Ctr.objective, Except.ok.injEq] at ho
              exact Or.inl ⟨ho.symm, rfl⟩
            | single q =>
              simp only [Ctr.objective, SVC.objective] at ho
              cases hv : q.sv.value with
              | none =>
                simp only [hv, Except.ok.injEq] at ho
                exact Or.inl ⟨ho.symm, by simp [asked, hv]⟩
              | some v =>
                simp only [hv] at ho
                cases hg : q.get s with
                | error e => simp [hg, Except.map] at ho
                | ok c' =>
                  simp only [hg, Except.map, Except.ok.injEq] at ho
                  refine Or.inr ⟨c', v, ho.symm, ?_⟩
                  rintro d rfl
                  simp [asked, hv, hg]
          rcases hcase with ⟨rfl, hn⟩ | ⟨c', v, rfl, hs⟩
          · obtain ⟨h1, h2, ls, h3, h4⟩ := ih os cs hcol B hB
            have e : objectives s (ci :: ctrs) = objectives s ctrs := by
              unfold objectives; rw [List.filterMap_cons_none hn]
            rw [e]
            refine ⟨h1, h2, c :: ls, ?_, by simp [h4]⟩
            simp only [List.map_cons, pySeq, hc, h3]
          · cases c' with
            | none => simp [pySeq] at hB
            | some d =>
              have e : objectives s (ci :: ctrs) = (d, v) :: objectives s ctrs := by
                unfold objectives; rw [List.filterMap_cons_some (hs d rfl)]
              simp only [List.singleton_append, List.map_cons, pySeq] at hB
              split at hB
              · cases hB
              · next xs hxs =>
                injection hB with hB
                obtain ⟨h1, h2, ls, h3, h4⟩ := ih os cs hcol xs hxs
                rw [e]
                refine ⟨by rw [← hB, h1]; rfl, by simp [h2], c :: ls, ?_, by simp [h4]⟩
                simp only [List.map_cons, pySeq, hc, h3]

theorem proj_dot (r g p : List ℝ) (b G : ℝ) (h : r.length = g.length) :
    pair (List.zipWith (fun x gj => x - b * gj / G) r g) p = pair r p - b * (pair g p / G) := by
  unfold pair
  induction r generalizing g p with
  | nil =>
    cases g with
    | nil => simp
    | cons => simp at h
  | cons x r ih =>
    cases g with
    | nil => simp at h
    | cons y g =>
      cases p with
      | nil => simp
      | cons z p =>
        simp only [List.zipWith_cons_cons, List.sum_cons]
        rw [ih g p (by simpa using h)]
        ring

/-- the inhomogeneous solution -/
noncomputable def gOf (pinv : Pinv) (s : List Elec) (ctrs : List Ctr) : List ℝ :=
  apply (pinv ((objectives s ctrs).map (·.1))) ((objectives s ctrs).map (·.2))

/-- rows of the equation handed to the solver -/
noncomputable def projOf (g : List ℝ) (q : List ℝ × ℝ) : List ℝ :=
  List.zipWith (fun x gj => x - q.2 * gj / pair g g) q.1 g

theorem projRows_eq (L : List (List ℝ × ℝ)) (g : List ℝ) :
    projRows (L.map (·.1)) (L.map (·.2)) g = L.map (projOf g) := by
  unfold projRows
  rw [List.zipWith_map, List.zipWith_self]
  rfl

/-- what a successful call of `optimize` has done -/
theorem optimize_inv (pinv : Pinv) (solver : Solver) (s : List Elec) (ctrs : List Ctr) (p : List ℝ) (c : ℝ)
    (h : optimize pinv solver s ctrs = .ok (p, c)) :
    ∃ ls, pySeq (ctrs.map (Ctr.constraints s)) = .ok ls ∧
      solver (gOf pinv s ctrs) (ls.flatten ++ ((objectives s ctrs).map (projOf (gOf pinv s ctrs))).dropLast.map
        fun r => ⟨r, .eq, 0⟩) s.length = some p ∧ pair (gOf pinv s ctrs) (gOf pinv s ctrs) ≠ 0 ∧
      c = pair p (gOf pinv s ctrs) / pair (gOf pinv s ctrs) (gOf pinv s ctrs) ∧ objectives s ctrs ≠ [] := by
  unfold optimize at h
  cases hcol : collect s ctrs with
  | error e => simp [hcol] at h
  | ok r =>
    obtain ⟨obj, lin⟩ := r
    simp only [hcol] at h
    cases hB : objRows obj with
    | error e => simp [hB] at h
    | ok B =>
      simp only [hB] at h
      unfold objRows at hB
      split_ifs at hB with hemp
      obtain ⟨h1, h2, ls, h3, h4⟩ := collect_eq s ctrs obj lin hcol B hB
      have hg : matVec (pinv B) (obj.map (·.2)) = gOf pinv s ctrs := by rw [h1, h2]; rfl
      rw [hg] at h
      rw [h1, h2, projRows_eq, h4] at h
      split_ifs at h with hg2
      split at h
      · cases h
      · next p' hp' =>
        simp only [Except.ok.injEq, Prod.mk.injEq] at h
        obtain ⟨rfl, rfl⟩ := h
        refine ⟨ls, h3, hp', hg2, rfl, ?_⟩
        intro hnil
        rw [hnil, List.map_nil, List.map_eq_nil_iff] at h2
        rw [h2] at hemp
        simp at hemp

theorem pySeq_mem {α β : Type*} (L : List α) (f : α → Py β) (r : List β) (h : pySeq (L.map f) = .ok r) (a : α) (ha : a ∈ L)
    (b : β) (hb : f a = .ok b) : b ∈ r := by
  obtain ⟨j, hj, rfl⟩ := List.getElem_of_mem ha
  obtain ⟨b', h1, h2⟩ := (pySeq_map_inv L f r h).2 j L[j] (by simp [hj])
  rw [hb] at h2
  injection h2 with h2
  subst h2
  exact List.mem_of_getElem? h1

theorem fulfils_append (a b : List LinCtr) (p : List ℝ) : Fulfils (a ++ b) p ↔ Fulfils a p ∧ Fulfils b p := by
  unfold Fulfils
  simp [or_imp, forall_and]

theorem fulfils_eqs (rows : List (List ℝ)) (p : List ℝ) :
    Fulfils (rows.map fun r => (⟨r, .eq, 0⟩ : LinCtr)) p ↔ ∀ r ∈ rows, pair r p = 0 := by
  unfold Fulfils
  simp

/-! ### C38 -/

theorem gOf_length (pinv : Pinv) (hp : IsPinv pinv) (s : List Elec) (ctrs : List Ctr)
    (hne : objectives s ctrs ≠ []) : (gOf pinv s ctrs).length = s.length := by
  have := (hp ((objectives s ctrs).map (·.1)) s.length (by simpa using hne) (by
    intro r hr
    rw [List.mem_map] at hr
    obtain ⟨q, hq, rfl⟩ := hr
    exact objectives_length s ctrs q hq)).1
  simp [gOf, apply, this]

/-- C38, the part that holds for every input: all objectives but the last are met in proportion to the
returned strength.  Missing: the last one. -/
theorem c38_proportional_partial (pinv : Pinv) (hp : IsPinv pinv) (solver : Solver) (hs : Correct solver) (s : List Elec)
    (ctrs : List Ctr) (p : List ℝ) (c : ℝ) (h : optimize pinv solver s ctrs = .ok (p, c)) :
    ∀ q ∈ (objectives s ctrs).dropLast, pair q.1 p = c * q.2 := by
  obtain ⟨ls, _, hsol, hg2, rfl, hne⟩ := optimize_inv pinv solver s ctrs p c h
  obtain ⟨_, hf, _⟩ := hs _ _ _ _ hsol
  rw [fulfils_append, fulfils_eqs] at hf
  intro q hq
  have h0 := hf.2 (projOf (gOf pinv s ctrs) q) (by
    rw [← List.map_dropLast]
    exact List.mem_map_of_mem hq)
  have hl := objectives_length s ctrs q (List.mem_of_mem_dropLast hq)
  unfold projOf at h0
  rw [proj_dot _ _ _ _ _ (by rw [hl, gOf_length pinv hp _ _ hne])] at h0
  rw [pair_comm p]
  linarith

/-- C38: the returned pattern fulfils all constraints and has one entry per electrode. -/
theorem c38_constraints (pinv : Pinv) (solver : Solver) (hs : Correct solver) (s : List Elec)
    (ctrs : List Ctr) (p : List ℝ) (c : ℝ) (h : optimize pinv solver s ctrs = .ok (p, c)) :
    p.length = s.length ∧ ∀ ci ∈ ctrs, ∃ l, ci.constraints s = .ok l ∧ Fulfils l p := by
  obtain ⟨ls, hls, hsol, _, rfl, _⟩ := optimize_inv pinv solver s ctrs p c h
  obtain ⟨hlen, hf, _⟩ := hs _ _ _ _ hsol
  rw [fulfils_append] at hf
  refine ⟨hlen, fun ci hci => ?_⟩
  obtain ⟨j, hj, rfl⟩ := List.getElem_of_mem hci
  obtain ⟨l, h1, h2⟩ := (pySeq_map_inv ctrs _ ls hls).2 j ctrs[j] (by simp [hj])
  refine ⟨l, h2, fun k hk => hf.1 k ?_⟩
  exact List.mem_flatten.2 ⟨l, List.mem_of_getElem? h1, hk⟩

/-- shape and the two equations of the pseudoinverse for the objectives -/
theorem pinv_facts (pinv : Pinv) (hp : IsPinv pinv) (s : List Elec) (ctrs : List Ctr) (hne : objectives s ctrs ≠ [])
    (u : List ℝ) (hu : u.length = s.length) (hr : ∀ q ∈ objectives s ctrs, pair q.1 u = q.2) :
    (∀ q ∈ objectives s ctrs, pair q.1 (gOf pinv s ctrs) = q.2) ∧
    ∃ y : List ℝ, y.length = (objectives s ctrs).length ∧
      ∀ v : List ℝ, v.length = s.length → pair (gOf pinv s ctrs) v = pair y ((objectives s ctrs).map fun q => pair q.1 v) := by
  have hB : ∀ r ∈ (objectives s ctrs).map (·.1), r.length = s.length := by
    intro r hr
    rw [List.mem_map] at hr
    obtain ⟨q, hq, rfl⟩ := hr
    exact objectives_length s ctrs q hq
  obtain ⟨_, _, h3, h4⟩ := hp _ _ (by simpa using hne) hB
  have hb : apply ((objectives s ctrs).map (·.1)) u = (objectives s ctrs).map (·.2) := by
    unfold apply
    rw [List.map_map]
    exact List.map_congr_left fun q hq => hr q hq
  constructor
  · have := h3 u hu
    rw [hb] at this
    unfold apply at this
    rw [List.map_map] at this
    have h5 := List.map_inj_left.1 this
    exact h5
  · obtain ⟨y, hy, hv⟩ := h4 ((objectives s ctrs).map (·.2)) (by simp)
    refine ⟨y, by simpa using hy, fun v hv' => ?_⟩
    have := hv v hv'
    unfold gOf
    rw [this]
    unfold apply
    rw [List.map_map]
    rfl

theorem pair_map_scale (y : List ℝ) {α : Type*} (L : List α) (f g : α → ℝ) (c : ℝ) :
    pair y (L.map fun q => f q - c * g q) = pair y (L.map f) - c * pair y (L.map g) := by
  unfold pair
  induction L generalizing y with
  | nil => simp
  | cons a L ih =>
    cases y with
    | nil => simp
    | cons b y => simp only [List.map_cons, List.zipWith_cons_cons, List.sum_cons, ih]; ring

theorem pair_zeros (y l : List ℝ) (h : ∀ x ∈ l, x = 0) : pair y l = 0 := by
  unfold pair
  induction y generalizing l with
  | nil => simp
  | cons a y ih =>
    cases l with
    | nil => simp
    | cons b l => simp [h b (by simp), ih l fun x hx => h x (by simp [hx])]

theorem pair_snoc (y : List ℝ) (a : ℝ) (l : List ℝ) (b : ℝ) (h : y.length = l.length) :
    pair (y ++ [a]) (l ++ [b]) = pair y l + a * b := by
  unfold pair
  rw [List.zipWith_append h]
  simp

/-- weighted residual of the objectives -/
theorem residual (pinv : Pinv) (hp : IsPinv pinv) (s : List Elec) (ctrs : List Ctr) (hne : objectives s ctrs ≠ [])
    (p : List ℝ) (hl : p.length = s.length)
    (u : List ℝ) (hu : u.length = s.length) (hr : ∀ q ∈ objectives s ctrs, pair q.1 u = q.2) (y : List ℝ)
    (hy : ∀ v : List ℝ, v.length = s.length → pair (gOf pinv s ctrs) v = pair y ((objectives s ctrs).map fun q => pair q.1 v))
    (c : ℝ) : pair y ((objectives s ctrs).map fun q => pair q.1 p - c * q.2)
      = pair (gOf pinv s ctrs) p - c * pair (gOf pinv s ctrs) (gOf pinv s ctrs) := by
  obtain ⟨h1, _⟩ := pinv_facts pinv hp s ctrs hne u hu hr
  rw [pair_map_scale y (objectives s ctrs) (fun q => pair q.1 p) (fun q => q.2) c, ← hy p hl,
    hy _ (gOf_length pinv hp s ctrs hne)]
  congr 3
  exact List.map_congr_left fun q hq => (h1 q hq).symm

/-- C38, a case in which all objectives are met in proportion: the values can be reached at all, and the
inhomogeneous solution `g` (which `optimize` maximises along) is not a combination of the other rows, witnessed by a
`w` to which only the last objective and `g` respond. -/
theorem c38_all_proportional_partial (pinv : Pinv) (hp : IsPinv pinv) (solver : Solver) (hs : Correct solver) (s : List Elec)
    (ctrs : List Ctr) (p : List ℝ) (c : ℝ) (h : optimize pinv solver s ctrs = .ok (p, c))
    (u : List ℝ) (hu : u.length = s.length) (hr : ∀ q ∈ objectives s ctrs, pair q.1 u = q.2)
    (w : List ℝ) (hw : w.length = s.length) (hw0 : ∀ q ∈ (objectives s ctrs).dropLast, pair q.1 w = 0)
    (hw1 : pair (apply (pinv ((objectives s ctrs).map (·.1))) ((objectives s ctrs).map (·.2))) w ≠ 0) :
    ∀ q ∈ objectives s ctrs, pair q.1 p = c * q.2 := by
  have hpart := c38_proportional_partial pinv hp solver hs s ctrs p c h
  obtain ⟨ls, hls, hsol, hg2, hc, hne⟩ := optimize_inv pinv solver s ctrs p c h
  obtain ⟨hlen, _, _⟩ := hs _ _ _ _ hsol
  obtain ⟨_, y, hyl, hy⟩ := pinv_facts pinv hp s ctrs hne u hu hr
  have hres := residual pinv hp s ctrs hne p hlen u hu hr y hy c
  have hz : pair (gOf pinv s ctrs) p - c * pair (gOf pinv s ctrs) (gOf pinv s ctrs) = 0 := by
    rw [hc, pair_comm p]; field_simp; ring
  rw [hz] at hres
  have hyw := hy w hw
  set L := objectives s ctrs with hL
  obtain ⟨L0, q0, hL0⟩ : ∃ L0 q0, L = L0 ++ [q0] := ⟨L.dropLast, L.getLast hne, (List.dropLast_append_getLast hne).symm⟩
  obtain ⟨y0, a, rfl⟩ : ∃ y0 a, y = y0 ++ [a] := by
    have : y ≠ [] := by
      intro h0; rw [h0] at hyl; rw [hL0] at hyl; simp at hyl
    exact ⟨y.dropLast, y.getLast this, (List.dropLast_append_getLast this).symm⟩
  have hlen0 : y0.length = L0.length := by rw [hL0] at hyl; simpa using hyl
  have hdrop : L.dropLast = L0 := by rw [hL0]; simp
  rw [hdrop] at hpart hw0
  rw [hL0, List.map_append, List.map_singleton, pair_snoc _ _ _ _ (by simpa using hlen0)] at hres hyw
  rw [pair_zeros y0 (L0.map fun q => pair q.1 w) (by
    intro x hx
    rw [List.mem_map] at hx
    obtain ⟨q, hq, rfl⟩ := hx
    exact hw0 q hq)] at hyw
  rw [pair_zeros y0 (L0.map fun q => pair q.1 p - c * q.2) (by
    intro x hx
    rw [List.mem_map] at hx
    obtain ⟨q, hq, rfl⟩ := hx
    rw [hpart q hq]; ring)] at hres
  have ha : a ≠ 0 := by
    intro h0
    apply hw1
    have : pair (gOf pinv s ctrs) w = 0 := by rw [hyw, h0]; ring
    exact this
  have hlast : pair q0.1 p - c * q0.2 = 0 := by
    rw [zero_add] at hres
    exact (mul_eq_zero.1 hres).resolve_left ha
  intro q hq
  rw [hL0, List.mem_append, List.mem_singleton] at hq
  rcases hq with hq | rfl
  · exact hpart q hq
  · linarith

/-- C38: no pattern that fulfils the constraints and meets all objectives in proportion has a larger strength
than the returned one (provided the values can be reached at all). -/
theorem c38_strongest (pinv : Pinv) (hp : IsPinv pinv) (solver : Solver) (hs : Correct solver) (s : List Elec)
    (ctrs : List Ctr) (p : List ℝ) (c : ℝ) (h : optimize pinv solver s ctrs = .ok (p, c))
    (u : List ℝ) (hu : u.length = s.length) (hr : ∀ q ∈ objectives s ctrs, pair q.1 u = q.2)
    (p' : List ℝ) (c' : ℝ) (hl : p'.length = s.length) (hc' : ∀ ci ∈ ctrs, ∀ l, ci.constraints s = .ok l → Fulfils l p')
    (ho : ∀ q ∈ objectives s ctrs, pair q.1 p' = c' * q.2) : c' ≤ c := by
  obtain ⟨ls, hls, hsol, hg2, hc, hne⟩ := optimize_inv pinv solver s ctrs p c h
  obtain ⟨hlen, _, hopt⟩ := hs _ _ _ _ hsol
  obtain ⟨_, y, hyl, hy⟩ := pinv_facts pinv hp s ctrs hne u hu hr
  have hres := residual pinv hp s ctrs hne p' hl u hu hr y hy c'
  rw [pair_zeros y ((objectives s ctrs).map fun q => pair q.1 p' - c' * q.2) (by
    intro x hx
    rw [List.mem_map] at hx
    obtain ⟨q, hq, rfl⟩ := hx
    rw [ho q hq]; ring)] at hres
  have hpos : 0 < pair (gOf pinv s ctrs) (gOf pinv s ctrs) := by
    refine lt_of_le_of_ne ?_ (Ne.symm hg2)
    unfold pair
    rw [List.zipWith_self]
    apply List.sum_nonneg
    intro x hx
    rw [List.mem_map] at hx
    obtain ⟨a, _, rfl⟩ := hx
    exact mul_self_nonneg a
  have hle := hopt p' hl (by
    rw [fulfils_append, fulfils_eqs]
    constructor
    · intro k hk
      obtain ⟨l, hl', hk'⟩ := List.mem_flatten.1 hk
      obtain ⟨j, hj, rfl⟩ := List.getElem_of_mem hl'
      have hj' : j < ctrs.length := by rw [← (pySeq_map_inv ctrs _ ls hls).1]; exact hj
      obtain ⟨l', h1, h2⟩ := (pySeq_map_inv ctrs _ ls hls).2 j ctrs[j] (by simp [hj'])
      rw [List.getElem?_eq_getElem hj] at h1
      injection h1 with h1
      exact hc' ctrs[j] (List.getElem_mem hj') ls[j] (by rw [h2, h1]) k hk'
    · intro r hr'
      rw [← List.map_dropLast, List.mem_map] at hr'
      obtain ⟨q, hq, rfl⟩ := hr'
      have hq' := List.mem_of_mem_dropLast hq
      unfold projOf
      rw [proj_dot _ _ _ _ _ (by rw [objectives_length s ctrs q hq', gOf_length pinv hp _ _ hne]), ho q hq']
      have : pair (gOf pinv s ctrs) p' = c' * pair (gOf pinv s ctrs) (gOf pinv s ctrs) := by linarith
      rw [this]
      field_simp
      ring)
  rw [hc, le_div_iff₀ hpos, pair_comm p]
  linarith

/-- C38: a solver that fails, like an empty set of objectives, ends in `ValueError`. -/
theorem c38_solver_failure (pinv : Pinv) (solver : Solver) (hn : ∀ g l n, solver g l n = none) (s : List Elec)
    (ctrs : List Ctr) : ∃ e, optimize pinv solver s ctrs = .error e := by
  cases h : optimize pinv solver s ctrs with
  | error e => exact ⟨e, rfl⟩
  | ok r =>
    obtain ⟨ls, _, hsol, _⟩ := optimize_inv pinv solver s ctrs r.1 r.2 h
    rw [hn] at hsol
    cases hsol

theorem c38_no_objective (pinv : Pinv) (solver : Solver) (s : List Elec) (ctrs : List Ctr)
    (hn : objectives s ctrs = []) : ∃ e, optimize pinv solver s ctrs = .error e := by
  cases h : optimize pinv solver s ctrs with
  | error e => exact ⟨e, rfl⟩
  | ok r =>
    obtain ⟨ls, _, _, _, _, hne⟩ := optimize_inv pinv solver s ctrs r.1 r.2 h
    exact absurd hn hne

end Electrode
