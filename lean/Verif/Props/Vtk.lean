import Verif.Model.Vtk
import Verif.Props.GridElectrode
import Verif.Props.Harmonics

/-
C94: electrodes read from VTK files.  C95: grids of given points and spherical grids.
-/
namespace Electrode
open Spec

/-! ### Specification -/

/-- the arrays of a file that are read: the potential and the field, in the order of the file -/
def Spec.vtkUsed (f : VtkFile) : List VtkArray := f.arrays.filter fun a => a.name = "potential" ∨ a.name = "field"

/-- The value of component `c` at the point with the indices `i`, `j`, `k` along the three axes: the VTK format lists the points with
the first index fastest, and all components of a point together. -/
noncomputable def Spec.vtkValue (f : VtkFile) (a : VtkArray) (i j k c : Nat) : ℝ :=
  a.data.getD ((i + f.nx * (j + f.ny * k)) * a.comps + c) 0

namespace Vtk

theorem not_pondpot : hasPondpot "potential" = false ∧ hasPondpot "field" = false := by
  constructor <;> decide +kernel

theorem arrays_ok (f : VtkFile) (l : List VtkArray) (pot pot' : List Arr4) (h : vtkArrays f l pot = .ok pot') :
    ∃ new, pot' = pot ++ new ∧ List.Forall₂ (fun a d => vtkReshape f a = .ok d) (l.filter fun a => a.name = "potential" ∨ a.name = "field") new := by
  induction l generalizing pot with
  | nil => exact ⟨[], by simpa [vtkArrays] using h.symm, by simp⟩
  | cons a t ih =>
    unfold vtkArrays at h
    by_cases hp : a.name = "potential" ∨ a.name = "field"
    · have h1 : hasPondpot a.name = false := by
        rcases hp with e | e <;> rw [e]
        · exact not_pondpot.1
        · exact not_pondpot.2
      rw [if_neg (by simp [h1]), if_neg (by tauto)] at h
      rw [List.filter_cons_of_pos (by simpa using hp)]
      split at h
      · cases h
      · rename_i d hd
        obtain ⟨new, e1, e2⟩ := ih _ h
        exact ⟨d :: new, by rw [e1]; simp, .cons hd e2⟩
    · have h2 : vtkArrays f t pot = .ok pot' := by
        by_cases h1 : hasPondpot a.name = true
        · rwa [if_pos h1] at h
        · rwa [if_neg h1, if_pos (by tauto)] at h
      rw [List.filter_cons_of_neg (by simpa using hp)]
      exact ih _ h2

theorem arrays_filter (f : VtkFile) (l : List VtkArray) (pot : List Arr4) :
    vtkArrays f l pot = vtkArrays f (l.filter fun a => a.name = "potential" ∨ a.name = "field") pot := by
  induction l generalizing pot with
  | nil => rfl
  | cons a t ih =>
    by_cases hp : a.name = "potential" ∨ a.name = "field"
    · rw [List.filter_cons_of_pos (by simpa using hp)]
      unfold vtkArrays
      simp only [ih]
    · rw [List.filter_cons_of_neg (by simpa using hp), ← ih]
      conv_lhs => unfold vtkArrays
      by_cases h1 : hasPondpot a.name = true
      · rw [if_pos h1]
      · rw [if_neg h1, if_pos (by tauto)]

theorem arrays_all (f : VtkFile) (l : List VtkArray) (pot : List Arr4) (hn : ∀ a ∈ l, a.name = "potential" ∨ a.name = "field")
    (hl : ∀ a ∈ l, a.data.length = f.nz * f.ny * f.nx * a.comps) :
    ∃ new, vtkArrays f l pot = .ok (pot ++ new) ∧ List.Forall₂ (fun a d => vtkReshape f a = .ok d) l new := by
  induction l generalizing pot with
  | nil => exact ⟨[], by simp [vtkArrays], .nil⟩
  | cons a t ih =>
    have hp := hn a (by simp)
    have h1 : hasPondpot a.name = false := by
      rcases hp with e | e <;> rw [e]
      · exact not_pondpot.1
      · exact not_pondpot.2
    obtain ⟨d, hd⟩ : ∃ d, vtkReshape f a = .ok d := ⟨_, if_pos (hl a (by simp))⟩
    obtain ⟨new, e1, e2⟩ := ih (pot ++ [d]) (fun b hb => hn b (by simp [hb])) (fun b hb => hl b (by simp [hb]))
    refine ⟨d :: new, ?_, .cons hd e2⟩
    unfold vtkArrays
    rw [if_neg (by simp [h1]), if_neg (by tauto), hd]
    simp only [e1, List.append_assoc, List.singleton_append]

theorem reshape_spec {f : VtkFile} {a : VtkArray} {d : Arr4} (h : vtkReshape f a = .ok d) :
    a.data.length = f.nz * f.ny * f.nx * a.comps ∧ d.n = f.nx ∧ d.m = f.ny ∧ d.k = f.nz ∧ d.l = a.comps ∧
      ∀ i j k c, d.val i j k c = vtkValue f a i j k c := by
  unfold vtkReshape at h
  split at h
  · next hl =>
    obtain rfl := Except.ok.inj h
    refine ⟨hl, rfl, rfl, rfl, rfl, fun i j k c => ?_⟩
    simp only [vtkValue]
    congr 1
    ring
  · cases h

theorem fromVtk_ok {isfile : String → Bool} {read : String → VtkFile} {fil : String} {maxderiv : Nat} {e : Elec}
    (h : fromVtk isfile read fil maxderiv = .ok e) :
    isfile fil = true ∧ ".vtk".toList.isSuffixOf fil.toList = true ∧
    ∃ pot data, List.Forall₂ (fun a d => vtkReshape (read fil) a = .ok d) (vtkUsed (read fil)) pot ∧ pot ≠ [] ∧
      gridGenerate pot (read fil).spacing maxderiv = .ok data ∧ e = ⟨"", 0, 0, .grid data (read fil).origin (read fil).spacing⟩ := by
  unfold fromVtk at h
  split at h
  · cases h
  · next hf =>
    rw [not_not] at hf
    refine ⟨hf.1, hf.2, ?_⟩
    split at h
    · cases h
    · cases h
    · next pot hne hp =>
      split at h
      · cases h
      · next data hd =>
        obtain ⟨new, e1, e2⟩ := arrays_ok _ _ _ _ hp
        rw [List.nil_append] at e1
        subst e1
        exact ⟨pot, data, e2, fun h0 => hne h0, hd, (Except.ok.inj h).symm⟩

end Vtk
open Vtk

/-! ### C94 -/

/-- C94: the electrode returned has, at the points of the file, the values of the file: the array read in position `d` holds the
derivatives of order `d`, with its `2d+1` components for all orders below `maxderiv`. -/
theorem c94_values (isfile : String → Bool) (read : String → VtkFile) (fil : String) (maxderiv : Nat) (e : Elec)
    (h : fromVtk isfile read fil maxderiv = .ok e)
    (hs : (read fil).spacing.x ≠ 0 ∧ (read fil).spacing.y ≠ 0 ∧ (read fil).spacing.z ≠ 0)
    (d : Nat) (hd : d < maxderiv) (a : VtkArray) (ha : (vtkUsed (read fil))[d]? = some a) :
    a.comps = 2 * d + 1 ∧
    ∀ i j k c, i < (read fil).nx → j < (read fil).ny → k < (read fil).nz → c < 2 * d + 1 → ∀ v,
      compAt e d c v ⟨(read fil).origin.x + i * (read fil).spacing.x, (read fil).origin.y + j * (read fil).spacing.y,
        (read fil).origin.z + k * (read fil).spacing.z⟩ = v * vtkValue (read fil) a i j k c := by
  obtain ⟨-, -, pot, data, hall, hne, hg, rfl⟩ := fromVtk_ok h
  obtain ⟨h1, h2⟩ := c53_orders_partial _ _ _ _ hg
  obtain ⟨dat, d0, e1, e2, e3, e4, e5, e6⟩ := h2 d hd
  have hlen := hall.length_eq
  have hdl : d < pot.length := by rw [← hlen]; exact (List.getElem?_eq_some_iff.1 ha).1
  obtain ⟨hda, haa⟩ := List.getElem?_eq_some_iff.1 ha
  have hr := (List.forall₂_iff_get.1 hall).2 d hda hdl
  rw [List.get_eq_getElem, List.get_eq_getElem, haa] at hr
  have hp : data[d]? = some pot[d] := h1 d _ (List.getElem?_eq_getElem hdl)
  rw [e1] at hp
  obtain rfl := Option.some.inj hp
  obtain ⟨-, n1, n2, n3, n4, nv⟩ := reshape_spec hr
  refine ⟨by rw [← n4, e3], fun i j k c hi hj hk hc v => ?_⟩
  have := c52_nodes (name := "") (dc := 0) (rf := 0) (data := data) (origin := (read fil).origin) (spacing := (read fil).spacing)
    (v := v) (d := d) (i := c) _ e1 (by rw [e3]) hc hs i j k (by rw [n1]; exact hi) (by rw [n2]; exact hj) (by rw [n3]; exact hk)
  rw [nv] at this
  exact this

/-- C94: a file with the potential (one component), or with the potential followed by the field (three components), at least two points
in each direction, is read whatever other arrays it contains. -/
theorem c94_succeeds (isfile : String → Bool) (read : String → VtkFile) (fil : String) (maxderiv : Nat) (hM : maxderiv ≤ 6)
    (hf : isfile fil = true) (hv : ".vtk".toList.isSuffixOf fil.toList = true)
    (hn : 2 ≤ (read fil).nx ∧ 2 ≤ (read fil).ny ∧ 2 ≤ (read fil).nz) (p q : VtkArray)
    (hu : vtkUsed (read fil) = [p] ∨ vtkUsed (read fil) = [p, q]) (hp : p.comps = 1) (hq : q.comps = 3)
    (hl : ∀ a ∈ vtkUsed (read fil), a.data.length = (read fil).nz * (read fil).ny * (read fil).nx * a.comps) :
    ∃ e, fromVtk isfile read fil maxderiv = .ok e := by
  obtain ⟨new, e1, e2⟩ := arrays_all (read fil) (vtkUsed (read fil)) [] (fun a ha => by simpa [vtkUsed] using (List.mem_filter.1 ha).2) hl
  rw [List.nil_append] at e1
  have e3 : vtkArrays (read fil) (read fil).arrays [] = .ok new := by rw [arrays_filter]; exact e1
  have hlen := e2.length_eq
  obtain ⟨data, hd⟩ := c53_succeeds new (read fil).spacing maxderiv hM (read fil).nx (read fil).ny (read fil).nz hn
    (by rw [← hlen]; rcases hu with h | h <;> rw [h] <;> simp)
    (fun d dat hdat => by
      obtain ⟨hdl, hdd⟩ := List.getElem?_eq_some_iff.1 hdat
      have hr := (List.forall₂_iff_get.1 e2).2 d (by rw [hlen]; exact hdl) hdl
      rw [List.get_eq_getElem, List.get_eq_getElem, hdd] at hr
      obtain ⟨-, n1, n2, n3, n4, -⟩ := reshape_spec hr
      refine ⟨?_, n1, n2, n3⟩
      rw [n4]
      have hd' : d < (vtkUsed (read fil)).length := by rw [hlen]; exact hdl
      rcases hu with h | h
      · simp only [h, List.length_singleton] at hd'
        obtain rfl : d = 0 := by omega
        simp [h, hp]
      · simp only [h, List.length_cons, List.length_nil] at hd'
        rcases (show d = 0 ∨ d = 1 by omega) with rfl | rfl <;> simp [h, hp, hq])
  refine ⟨⟨"", 0, 0, .grid data (read fil).origin (read fil).spacing⟩, ?_⟩
  unfold fromVtk
  rw [if_neg (by simp only [hf, hv]; simp), e3]
  cases new with
  | nil => rcases hu with h | h <;> rw [h] at hlen <;> simp at hlen
  | cons a t => simp only [hd]

/-- C94: only the arrays with the names `potential` and `field` matter. -/
theorem c94_others (isfile : String → Bool) (read read' : String → VtkFile) (fil : String) (maxderiv : Nat)
    (hu : vtkUsed (read' fil) = vtkUsed (read fil))
    (hsame : (read' fil).nx = (read fil).nx ∧ (read' fil).ny = (read fil).ny ∧ (read' fil).nz = (read fil).nz ∧
      (read' fil).spacing = (read fil).spacing ∧ (read' fil).origin = (read fil).origin) :
    fromVtk isfile read' fil maxderiv = fromVtk isfile read fil maxderiv := by
  obtain ⟨h1, h2, h3, h4, h5⟩ := hsame
  have hres : ∀ a, vtkReshape (read' fil) a = vtkReshape (read fil) a := fun a => by
    unfold vtkReshape; rw [h1, h2, h3]
  have harr : ∀ l pot, vtkArrays (read' fil) l pot = vtkArrays (read fil) l pot := by
    intro l
    induction l with
    | nil => intro pot; rfl
    | cons a t ih => intro pot; unfold vtkArrays; simp only [hres, ih]
  have hA : vtkArrays (read' fil) (read' fil).arrays [] = vtkArrays (read fil) (read fil).arrays [] := by
    rw [arrays_filter, arrays_filter (read fil), harr]
    exact congrArg (fun l => vtkArrays (read fil) l []) hu
  unfold fromVtk
  rw [hA, h4, h5]

/-- C94: `FileNotFoundError` is raised exactly if there is no such file or its name does not end with `.vtk`. -/
theorem c94_no_file (isfile : String → Bool) (read : String → VtkFile) (fil : String) (maxderiv : Nat) :
    (¬ (isfile fil = true ∧ ".vtk".toList <:+ fil.toList) → fromVtk isfile read fil maxderiv = .error .osError) ∧
    (∀ e, fromVtk isfile read fil maxderiv = .ok e → isfile fil = true ∧ ".vtk".toList <:+ fil.toList) := by
  constructor
  · intro h
    unfold fromVtk
    rw [if_pos]
    rwa [List.isSuffixOf_iff_suffix]
  · intro e h
    obtain ⟨h1, h2, -⟩ := fromVtk_ok h
    exact ⟨h1, List.isSuffixOf_iff_suffix.1 h2⟩

/-- Not so: for a file without potential and field the error is an `UnboundLocalError`. -/
theorem c94_no_data (isfile : String → Bool) (read : String → VtkFile) (fil : String) (maxderiv : Nat)
    (hf : isfile fil = true) (hv : ".vtk".toList.isSuffixOf fil.toList = true) (hu : vtkUsed (read fil) = []) :
    fromVtk isfile read fil maxderiv = .error .unboundLocalError := by
  unfold fromVtk
  rw [if_neg (by simp only [hf, hv]; simp), arrays_filter, show (read fil).arrays.filter _ = [] from hu]
  rfl

/-- Not so: the order of the arrays in the file matters.  A file in which the field comes first, or that has only the field, is refused
with an `AssertionError`. -/
theorem c94_field_first (isfile : String → Bool) (read : String → VtkFile) (fil : String) (maxderiv : Nat) (hM : 0 < maxderiv)
    (hf : isfile fil = true) (hv : ".vtk".toList.isSuffixOf fil.toList = true) (q : VtkArray) (t : List VtkArray)
    (hu : vtkUsed (read fil) = q :: t) (hq : q.comps = 3)
    (hl : ∀ a ∈ vtkUsed (read fil), a.data.length = (read fil).nz * (read fil).ny * (read fil).nx * a.comps) :
    fromVtk isfile read fil maxderiv = .error .assertionError := by
  obtain ⟨new, e1, e2⟩ := arrays_all (read fil) (vtkUsed (read fil)) [] (fun a ha => by simpa [vtkUsed] using (List.mem_filter.1 ha).2) hl
  rw [List.nil_append] at e1
  have e3 : vtkArrays (read fil) (read fil).arrays [] = .ok new := by rw [arrays_filter]; exact e1
  rw [hu] at e2
  cases e2 with
  | cons h1 h2 =>
    rename_i d ds
    obtain ⟨-, -, -, -, n4, -⟩ := reshape_spec h1
    unfold fromVtk
    rw [if_neg (by simp only [hf, hv]; simp), e3]
    have : gridGenerate (d :: ds) (read fil).spacing maxderiv = .error .assertionError := by
      obtain ⟨k, rfl⟩ : ∃ k, maxderiv = k + 1 := ⟨maxderiv - 1, by omega⟩
      unfold gridGenerate
      rw [List.range_succ_eq_map, List.foldlM_cons]
      have : gridGenStep (read fil).spacing (d :: ds) 0 = .error .assertionError := by
        unfold gridGenStep
        simp [n4, hq]
      rw [this]
      rfl
    simp only [this]

/-- a file with the potential `x + 10 y + 100 z` on a grid of `2×2×2` points, an array that is not used, and no field -/
noncomputable def exVtk : VtkFile :=
  ⟨2, 2, 2, ⟨1, 1, 1⟩, ⟨0, 0, 0⟩, [⟨"rf_pondpot", 1, []⟩, ⟨"potential", 1, [0, 1, 10, 11, 100, 101, 110, 111]⟩]⟩

theorem exVtk_used : vtkUsed exVtk = [⟨"potential", 1, [0, 1, 10, 11, 100, 101, 110, 111]⟩] := by
  simp [vtkUsed, exVtk, List.filter_cons]

/-- The hypotheses are met: the file is read, and the value at `x = 1`, `y = 0`, `z = 1` is `101`. -/
example : ∃ e, fromVtk (fun _ => true) (fun _ => exVtk) "a.vtk" 4 = .ok e ∧ compAt e 0 0 2 ⟨1, 0, 1⟩ = 2 * 101 := by
  obtain ⟨e, he⟩ := c94_succeeds (fun _ => true) (fun _ => exVtk) "a.vtk" 4 (by norm_num) rfl (by decide +kernel)
    ⟨le_refl 2, le_refl 2, le_refl 2⟩ ⟨"potential", 1, [0, 1, 10, 11, 100, 101, 110, 111]⟩ ⟨"", 3, []⟩ (Or.inl exVtk_used) rfl rfl
    (by simp only [exVtk_used, List.mem_singleton]; rintro a rfl; rfl)
  refine ⟨e, he, ?_⟩
  have := (c94_values _ _ _ _ e he (by simp [exVtk]) 0 (by norm_num) _ (by simp only [exVtk_used]; rfl)).2 1 0 1 0
    (by simp [exVtk]) (by simp [exVtk]) (by simp [exVtk]) (by norm_num) 2
  simpa [vtkValue, exVtk] using this

/-- files without data, and with the field first -/
example : fromVtk (fun _ => true) (fun _ => { exVtk with arrays := [] }) "a.vtk" 4 = .error .unboundLocalError ∧
    fromVtk (fun _ => true) (fun _ => ⟨1, 1, 1, ⟨1, 1, 1⟩, ⟨0, 0, 0⟩, [⟨"field", 3, [1, 2, 3]⟩, ⟨"potential", 1, [0]⟩]⟩) "a.vtk" 4
      = .error .assertionError := by
  constructor
  · exact c94_no_data _ _ _ _ rfl (by decide +kernel) (by simp [vtkUsed])
  · refine c94_field_first _ _ _ _ (by norm_num) rfl (by decide +kernel) ⟨"field", 3, [1, 2, 3]⟩ [⟨"potential", 1, [0]⟩]
      (by simp [vtkUsed, List.filter_cons]) rfl ?_
    simp [vtkUsed, List.filter_cons]

/-! ### C95 -/

/-- C95: a grid of given points has these points in their order. -/
theorem c95_unstructured (rows : List (List ℝ)) (g : UGrid) (h : UGrid.init rows = .ok g) :
    ∃ xs ys zs : List ℝ, rows = [xs, ys, zs] ∧ ys.length = xs.length ∧ zs.length = xs.length ∧
      g.toPoints.length = xs.length ∧
      ∀ (j : Nat) x y z, xs[j]? = some x → ys[j]? = some y → zs[j]? = some z → g.toPoints[j]? = some [x, y, z] := by
  unfold UGrid.init at h
  split at h
  · cases h
  · next h1 =>
    split at h
    · cases h
    · next h2 =>
      rw [not_not] at h1 h2
      obtain rfl := (Except.ok.inj h).symm
      match rows, h2 with
      | [xs, ys, zs], _ =>
        simp only [List.all_cons, List.headD_cons, List.all_nil, Bool.and_true, Bool.and_eq_true, decide_true, true_and] at h1
        have h1 : ys.length = xs.length ∧ zs.length = xs.length := ⟨of_decide_eq_true h1.1, of_decide_eq_true h1.2⟩
        refine ⟨xs, ys, zs, rfl, h1.1, h1.2, by simp [UGrid.toPoints], ?_⟩
        intro j x y z hx hy hz
        obtain ⟨hj, hx'⟩ := List.getElem?_eq_some_iff.1 hx
        simp [UGrid.toPoints, hj, hx', hy, hz]

/-- C95: any three lists of the same length are accepted. -/
theorem c95_unstructured_ok (xs ys zs : List ℝ) (hy : ys.length = xs.length) (hz : zs.length = xs.length) :
    ∃ g, UGrid.init [xs, ys, zs] = .ok g := by
  refine ⟨⟨[xs, ys, zs], xs.length⟩, ?_⟩
  unfold UGrid.init
  rw [if_neg (by simp [hy, hz]), if_neg (by simp)]
  rfl

/-- Not so: `to_mgrid` of such a grid raises `TypeError` instead of `NotImplementedError`, and the inherited methods `AttributeError`. -/
theorem c95_not_implemented (g : UGrid) : g.toMgrid = .error .typeError ∧ g.getOrigin = .error .attributeError := ⟨rfl, rfl⟩

theorem SGrid.init_ok {old : Bool} {x w : Nat → ℝ} {lpmn : Nat → Nat → ℝ → ℝ} {empty : Int × Int → Nat × Int} {origins : List V3}
    {r : ℝ} {n : Nat} {g : SGrid} (h : SGrid.init old x w lpmn empty origins r n = .ok g) :
    ∃ s, sphInit old n x w lpmn empty = .ok s ∧ g = ⟨s, origins, r, n, x⟩ := by
  unfold SGrid.init at h
  split at h
  · cases h
  · next s hs => exact ⟨s, hs, (Except.ok.inj h).symm⟩

/-- C95: every point of a spherical grid lies on the sphere with the radius given around one of the origins, at the height of the
Legendre root and at the azimuth of its position in the grid. -/
theorem c95_sphere (old : Bool) (x w : Nat → ℝ) (lpmn : Nat → Nat → ℝ → ℝ) (empty : Int × Int → Nat × Int) (origins : List V3)
    (r : ℝ) (n : Nat) (g : SGrid) (h : SGrid.init old x w lpmn empty origins r n = .ok g) (o : V3) (i k : Nat)
    (hx : -1 ≤ x i ∧ x i ≤ 1) :
    let p := g.mgridAt o i k
    (p.x - o.x) ^ 2 + (p.y - o.y) ^ 2 + (p.z - o.z) ^ 2 = r ^ 2 ∧ p.z - o.z = r * x i ∧
      p.x - o.x = r * √(1 - x i ^ 2) * Real.cos (phiSample n k) ∧ p.y - o.y = r * √(1 - x i ^ 2) * Real.sin (phiSample n k) := by
  obtain ⟨s, hs, rfl⟩ := SGrid.init_ok h
  have e : (k : ℝ) * (Real.pi / n) = phiSample n k := by unfold phiSample; ring
  have hc : 0 ≤ 1 - x i ^ 2 := by nlinarith [hx.1, hx.2]
  simp only [SGrid.mgridAt, SGrid.angles, sphericalToCartesian, e, Real.sin_arccos, Real.cos_arccos hx.1 hx.2]
  refine ⟨?_, by ring, by ring, by ring⟩
  have h1 := Real.sin_sq_add_cos_sq (phiSample n k)
  have h2 := Real.sq_sqrt hc
  linear_combination (r ^ 2 * √(1 - x i ^ 2) ^ 2) * h1 + r ^ 2 * h2

/-- C95: `to_points` lists all points, `2 n²` for each origin, in the order origin, polar angle, azimuth. -/
theorem c95_points (old : Bool) (x w : Nat → ℝ) (lpmn : Nat → Nat → ℝ → ℝ) (empty : Int × Int → Nat × Int) (origins : List V3)
    (r : ℝ) (n : Nat) (g : SGrid) (h : SGrid.init old x w lpmn empty origins r n = .ok g) :
    g.toPoints.length = origins.length * (2 * n ^ 2) ∧
    ∀ (a : Nat) o i k, origins[a]? = some o → i < n → k < 2 * n →
      g.toPoints[(a * n + i) * (2 * n) + k]? = some (g.mgridAt o i k) := by
  obtain ⟨s, hs, rfl⟩ := SGrid.init_ok h
  have flat : ∀ {α β : Type} (l : List α) (f : α → List β) (m : Nat) (hm : ∀ a ∈ l, (f a).length = m),
      (l.flatMap f).length = l.length * m ∧
      ∀ (a : Nat) b (j : Nat), l[a]? = some b → j < m → (l.flatMap f)[a * m + j]? = (f b)[j]? := by
    intro α β l f m hm
    induction l with
    | nil => simp
    | cons c t ih =>
      obtain ⟨i1, i2⟩ := ih fun a ha => hm a (by simp [ha])
      have hc := hm c (by simp)
      refine ⟨by simp only [List.flatMap_cons, List.length_append, i1, hc, List.length_cons]; ring, ?_⟩
      intro a b j hb hj
      rw [List.flatMap_cons]
      cases a with
      | zero =>
        simp only [List.getElem?_cons_zero, Option.some.injEq] at hb
        subst hb
        rw [zero_mul, zero_add, List.getElem?_append_left (by omega)]
      | succ a =>
        rw [List.getElem?_cons_succ] at hb
        rw [List.getElem?_append_right (by rw [hc]; nlinarith), hc, show (a + 1) * m + j - m = a * m + j by
          rw [Nat.succ_mul]; omega]
        exact i2 a b j hb hj
  simp only [SGrid.toPoints]
  have hin : ∀ o : V3, ((List.range n).flatMap fun i => (List.range (2 * n)).map fun k => SGrid.mgridAt ⟨s, origins, r, n, x⟩ o i k).length
      = 2 * n ^ 2 := fun o => by
    rw [(flat (List.range n) _ (2 * n) (by simp)).1, List.length_range]; ring
  obtain ⟨f1, f2⟩ := flat origins (fun o => (List.range n).flatMap fun i => (List.range (2 * n)).map fun k =>
    SGrid.mgridAt ⟨s, origins, r, n, x⟩ o i k) (2 * n ^ 2) fun o _ => hin o
  refine ⟨f1, ?_⟩
  intro a o i k ho hi hk
  rw [show (a * n + i) * (2 * n) + k = a * (2 * n ^ 2) + (i * (2 * n) + k) by ring]
  rw [f2 a o _ ho (by nlinarith)]
  rw [(flat (List.range n) (fun i => (List.range (2 * n)).map fun k => SGrid.mgridAt ⟨s, origins, r, n, x⟩ o i k) (2 * n) (by simp)).2
    i i k (by simp [hi]) hk]
  simp [hk]

/-- C95: If a function is, on the sphere around an origin, a sum of spherical harmonics of degrees below `n`, the analysis of its values
on the grid returns the coefficients. -/
theorem c95_expansion (old : Bool) (x w : Nat → ℝ) (empty : Int × Int → Nat × Int) (origins : List V3)
    (r : ℝ) (n : Nat) (g : SGrid) (h : SGrid.init old x w assocLegendre empty origins r n = .ok g) (hg : GaussLegendre n x w)
    (o : V3) (V : V3 → ℂ) (a : Arr2) (ha : a.rows = n ∧ a.cols = n)
    (hV : ∀ c phi : ℝ, -1 ≤ c → c ≤ 1 →
      V ⟨o.x + r * √(1 - c ^ 2) * Real.cos phi, o.y + r * √(1 - c ^ 2) * Real.sin phi, o.z + r * c⟩ =
        ((sphIndices n).map fun e => a.get e.2.2.1.toNat e.2.2.2.toNat * ynm assocLegendre e.1 e.2.1 c phi).sum) :
    ∃ a', g.harmonics.analysis ⟨n, 2 * n, fun i k => V (g.mgridAt o i k)⟩ = .ok a' ∧ a'.rows = n ∧ a'.cols = n ∧
      ∀ p < n, ∀ q < n, a'.get p q = a.get p q := by
  have hx := hg.inside
  have hsph := fun i k hi => c95_sphere old x w assocLegendre empty origins r n g h o i k (hx i hi)
  obtain ⟨s, hs, rfl⟩ := SGrid.init_ok h
  obtain ⟨f, a', e1, e2, e3, e4, e5⟩ := c55_identity hg hs a ha.1 ha.2
  obtain ⟨f', e6, e7, e8, e9⟩ := c55_synthesis hs a ha.1 ha.2
  obtain rfl : f' = f := by rw [e6] at e1; exact Except.ok.inj e1
  have hF : ∀ i < n, ∀ k < 2 * n, V (SGrid.mgridAt ⟨s, origins, r, n, x⟩ o i k) = f'.get i k := by
    intro i hi k hk
    rw [e9 i hi k hk, ← hV (x i) (phiSample n k) (hx i hi).1 (hx i hi).2]
    obtain ⟨-, h2, h3, h4⟩ := hsph i k hi
    congr 1
    ext
    · linarith
    · linarith
    · linarith
  obtain ⟨b, b1, b2, b3, b4⟩ := c55_analysis hs ⟨n, 2 * n, fun i k => V (SGrid.mgridAt ⟨s, origins, r, n, x⟩ o i k)⟩ rfl rfl
  obtain ⟨b', c1, c2, c3, c4⟩ := c55_analysis hs f' e7 e8
  obtain rfl : b' = a' := by rw [c1] at e2; exact Except.ok.inj e2
  refine ⟨b, b1, b2, b3, fun p hp q hq => ?_⟩
  rw [← e5 p hp q hq]
  obtain ⟨e, he, hpq⟩ := List.mem_map.1 (((c54_places n).2 p q).2 ⟨⟨by omega, by omega⟩, by omega, by omega⟩)
  obtain ⟨N, m, p', q'⟩ := e
  obtain ⟨rfl, rfl⟩ := Prod.mk.inj hpq
  have u1 := b4 N m _ _ he
  have u2 := c4 N m _ _ he
  simp only [Int.toNat_natCast] at u1 u2
  rw [u1, u2]
  refine Finset.sum_congr rfl fun i hi => Finset.sum_congr rfl fun k hk => ?_
  rw [hF i (Finset.mem_range.1 hi) k (Finset.mem_range.1 hk)]

/-- The hypotheses of the expansion are met, for example by a constant potential: only the first coefficient differs from zero. -/
example (o : V3) (r : ℝ) (empty : Int × Int → Nat × Int) :
    ∃ g, SGrid.init true (fun i => if i = 0 then -(1 / √3) else 1 / √3) (fun _ => 1) assocLegendre empty [o] r 2 = .ok g ∧
      ∃ a', g.harmonics.analysis ⟨2, 4, fun i k => (fun _ : V3 => (1 : ℂ)) (g.mgridAt o i k)⟩ = .ok a' ∧ a'.get 0 0 = (√(4 * Real.pi) : ℝ) ∧
        a'.get 1 1 = 0 := by
  obtain ⟨s, hs⟩ := c55_old_numpy 2 (fun i => if i = 0 then -(1 / √3) else 1 / √3) (fun _ => 1) assocLegendre empty
  have hi : SGrid.init true (fun i => if i = 0 then -(1 / √3) else 1 / √3) (fun _ => 1) assocLegendre empty [o] r 2
      = .ok ⟨s, [o], r, 2, fun i => if i = 0 then -(1 / √3) else 1 / √3⟩ := by
    unfold SGrid.init; rw [hs]
  refine ⟨_, hi, ?_⟩
  obtain ⟨a', e1, -, -, e4⟩ := c95_expansion true _ _ empty [o] r 2 _ hi exGauss o (fun _ => 1)
    ⟨2, 2, fun p q => if p = 0 ∧ q = 0 then ((√(4 * Real.pi) : ℝ) : ℂ) else 0⟩ ⟨rfl, rfl⟩ (by
      intro c phi _ _
      have : sphIndices 2 = [(0, 0, 0, 0), (1, -1, 1, 0), (1, 0, 0, 1), (1, 1, 1, 1)] := by decide
      rw [this]
      simp [ynm, assocLegendre, legendre]
      have h1 : ((√4 : ℝ) : ℂ) ≠ 0 := by exact_mod_cast (Real.sqrt_pos.2 (by norm_num : (0 : ℝ) < 4)).ne'
      have h2 : ((√Real.pi : ℝ) : ℂ) ≠ 0 := by exact_mod_cast (Real.sqrt_pos.2 Real.pi_pos).ne'
      field_simp)
  refine ⟨a', e1, ?_, ?_⟩
  · rw [e4 0 (by norm_num) 0 (by norm_num)]; simp
  · rw [e4 1 (by norm_num) 1 (by norm_num)]; simp

end Electrode
