import Verif.Model.Expressions
import Mathlib.Tactic.Ring
import Mathlib.Tactic.Linarith
import Mathlib.Algebra.BigOperators.Group.List.Basic
import Mathlib.Algebra.BigOperators.Ring.List

/-
Closed forms of the accumulation loops: every row of the result is the row of `out` plus a
sum over pixels/edges and images.
-/
namespace Electrode
open Real

/-- add a function of the component index to a row -/
def addFn (row : List ℝ) (f : Nat → ℝ) : List ℝ := row.mapIdx fun i o => o + f i

theorem addRow_eq (row t : List ℝ) : addRow row t = addFn row fun i => t.getD i 0 := rfl

theorem addFn_addFn (row : List ℝ) (f g : Nat → ℝ) : addFn (addFn row f) g = addFn row fun i => f i + g i := by
  apply List.ext_getElem
  · simp [addFn]
  · intro i _ _; simp [addFn]; try ring

theorem addFn_zero (row : List ℝ) : addFn row (fun _ => 0) = row := by
  apply List.ext_getElem <;> simp [addFn]

theorem addFn_length (row : List ℝ) (f : Nat → ℝ) : (addFn row f).length = row.length := by simp [addFn]

theorem addFn_getElem (row : List ℝ) (f : Nat → ℝ) (i : Nat) (h : i < (addFn row f).length) :
    (addFn row f)[i] = row[i]'(by simpa [addFn] using h) + f i := by simp [addFn]

theorem addFn_congr (row : List ℝ) {f g : Nat → ℝ} (h : ∀ i < row.length, f i = g i) : addFn row f = addFn row g := by
  apply List.ext_getElem
  · simp [addFn]
  · intro i h1 _
    have : i < row.length := by simpa [addFn] using h1
    simp [addFn, h i this]

/-- a fold that adds a function for each item adds the sum -/
theorem foldl_addFn {α : Type*} (l : List α) (f : α → Nat → ℝ) (row : List ℝ) :
    l.foldl (fun row a => addFn row (f a)) row = addFn row fun i => (l.map fun a => f a i).sum := by
  induction l generalizing row with
  | nil => simp [addFn_zero]
  | cons a l ih => simp only [List.foldl_cons, ih, addFn_addFn, List.map_cons, List.sum_cons]

theorem zipWith_zipWith_right {α β : Type*} (x : List α) (out : List β) (f g : α → β → β) :
    List.zipWith f x (List.zipWith g x out) = List.zipWith (fun p r => f p (g p r)) x out := by
  induction x generalizing out with
  | nil => simp
  | cons a x ih => cases out with
    | nil => simp
    | cons b out => simp [ih]

theorem zipWith_id_right {α β : Type*} (x : List α) (out : List β) (h : x.length = out.length) :
    List.zipWith (fun _ r => r) x out = out := by
  induction x generalizing out with
  | nil => cases out <;> simp_all
  | cons a x ih => cases out with
    | nil => simp at h
    | cons b out => simp [ih out (by simpa using h)]

theorem zipWith_congr {α β γ : Type*} (x : List α) (out : List β) (f g : α → β → γ) (h : ∀ a b, f a b = g a b) :
    List.zipWith f x out = List.zipWith g x out := by
  have : f = g := funext fun a => funext fun b => h a b
  rw [this]

/-- accumulate a list of items over all positions -/
theorem foldl_rows {α : Type*} (l : List α) (x : List V3) (out : List (List ℝ)) (h : x.length = out.length)
    (f : α → V3 → Nat → ℝ) :
    l.foldl (fun out a => List.zipWith (fun p row => addFn row (f a p)) x out) out
      = List.zipWith (fun p row => addFn row fun i => (l.map fun a => f a p i).sum) x out := by
  induction l generalizing out with
  | nil => simp only [List.foldl_nil, List.map_nil, List.sum_nil, addFn_zero]; exact (zipWith_id_right x out h).symm
  | cons a l ih =>
    simp only [List.foldl_cons]
    rw [ih _ (by simp [h]), zipWith_zipWith_right]
    apply zipWith_congr
    intro p row
    rw [addFn_addFn]; simp

/-! ### point pixels -/

/-- position moved up by `d` -/
def V3.lift (p : V3) (d : ℝ) : V3 := ⟨p.x, p.y, p.z + d⟩

/-- component `i` of the derivative of order `d` of a unit pixel at `q`, seen from `p`, no cover -/
noncomputable def pixelComp (d i : Nat) (q : V2) (p : V3) : ℝ :=
  (pointTerm d (p.x - q.x) (p.y - q.y) p.z (√((p.x - q.x) ^ 2 + (p.y - q.y) ^ 2 + p.z ^ 2)) 1).getD i 0

theorem pointNorm_lin (d : Nat) (r a : ℝ) : pointNorm d r a = a * pointNorm d r 1 := by
  unfold pointNorm
  split <;> ring

theorem getD_map_mul (l : List PExpr) (f : PExpr → ℝ) (i : Nat) (a : ℝ) :
    (l.map fun e => a * f e).getD i 0 = a * (l.map f).getD i 0 := by
  induction l generalizing i with
  | nil => simp
  | cons e l ih => cases i with
    | zero => simp
    | succ i => simpa using ih i

theorem pointTerm_lin (d : Nat) (x y z r a : ℝ) (i : Nat) :
    (pointTerm d x y z r a).getD i 0 = a * (pointTerm d x y z r 1).getD i 0 := by
  unfold pointTerm
  rw [← getD_map_mul]
  congr 1
  apply List.map_congr_left
  intro e _
  rw [pointNorm_lin]; ring

/-- images of a position under the cover expansion -/
noncomputable def images (nmax : Nat) (h : ℝ) (p : V3) : List V3 := (coverRange nmax).map fun k : ℤ => p.lift (2 * (k : ℝ) * h)

/-- total unit-voltage contribution of point pixels -/
noncomputable def pointContrib (d nmax : Nat) (h : ℝ) (points : List V2) (areas : List ℝ) (p : V3) (i : Nat) : ℝ :=
  ((points.zip areas).map fun q => ((images nmax h p).map fun p' => q.2 * pixelComp d i q.1 p').sum).sum

theorem pointStep_eq (d : Nat) (h : ℝ) (q : V2) (a0 : ℝ) (p : V3) (row : List ℝ) (k : ℤ) :
    pointStep d h q a0 p row k = addFn row fun i => a0 * pixelComp d i q (p.lift (2 * k * h)) := by
  unfold pointStep
  rw [addRow_eq]
  congr 1
  funext i
  rw [pointTerm_lin]
  rfl

theorem pointPotential_eq (x : List V3) (points : List V2) (areas : List ℝ) (v : ℝ) (d nmax : Nat) (h : ℝ)
    (out : List (List ℝ)) (hl : x.length = out.length) :
    pointPotential x points areas v d nmax h (some out)
      = List.zipWith (fun p row => addFn row fun i => v * pointContrib d nmax h points areas p i) x out := by
  unfold pointPotential
  simp only [Option.getD_some]
  have hstep : ∀ (q : V2 × ℝ) (p : V3) (row : List ℝ),
      (coverRange nmax).foldl (pointStep d h q.1 (q.2 * v) p) row
        = addFn row fun i => ((images nmax h p).map fun p' => q.2 * v * pixelComp d i q.1 p').sum := by
    intro q p row
    have e : pointStep d h q.1 (q.2 * v) p = fun row k => addFn row ((fun (k : ℤ) i => q.2 * v * pixelComp d i q.1 (p.lift (2 * k * h))) k) := by
      funext row k; exact pointStep_eq ..
    rw [e, foldl_addFn]
    simp only [images, List.map_map, Function.comp_def]
  simp only [hstep]
  rw [foldl_rows _ x out hl fun (q : V2 × ℝ) p i => ((images nmax h p).map fun p' => q.2 * v * pixelComp d i q.1 p').sum]
  apply zipWith_congr
  intro p row
  congr 1
  funext i
  unfold pointContrib
  rw [← List.sum_map_mul_left]
  congr 1
  apply List.map_congr_left
  intro q _
  rw [← List.sum_map_mul_left]
  congr 1
  apply List.map_congr_left
  intro p' _
  ring

/-! ### polygons -/

/-- component `i` of the derivative of order `d` contributed by the boundary edge from `v1` to
`v2` at unit voltage, seen from `p`, no cover -/
noncomputable def segComp (d i : Nat) (p : V3) (v1 v2 : V2) : ℝ :=
  (edgeTerm d (p.x - v1.x) (p.x - v2.x) (p.y - v1.y) (p.y - v2.y)
    (√((p.x - v1.x) ^ 2 + (p.y - v1.y) ^ 2 + p.z ^ 2)) (√((p.x - v2.x) ^ 2 + (p.y - v2.y) ^ 2 + p.z ^ 2))
    (((p.x - v1.x) - (p.x - v2.x)) ^ 2 + ((p.y - v1.y) - (p.y - v2.y)) ^ 2) p.z 1).getD i 0

theorem edgeNorm_lin (d : Nat) (r1 r2 l2 a : ℝ) : edgeNorm d r1 r2 l2 a = a * edgeNorm d r1 r2 l2 1 := by
  unfold edgeNorm
  split <;> ring

theorem edgeTerm_lin (d : Nat) (x1 x2 y1 y2 r1 r2 l2 z a : ℝ) (i : Nat) :
    (edgeTerm d x1 x2 y1 y2 r1 r2 l2 z a).getD i 0 = a * (edgeTerm d x1 x2 y1 y2 r1 r2 l2 z 1).getD i 0 := by
  unfold edgeTerm
  cases d with
  | zero => cases i with
    | zero => simp; ring
    | succ i => simp
  | succ d =>
    simp only
    rw [← getD_map_mul]
    congr 1
    apply List.map_congr_left
    intro e _
    rw [edgeNorm_lin]; ring

/-- consecutive pairs, starting with `prev` -/
def edgesFrom (prev : V2) : List V2 → List (V2 × V2)
  | [] => []
  | q :: l => (prev, q) :: edgesFrom q l

/-- edges of the closed boundary, starting with (last vertex, first vertex) -/
def boundaryEdges (poly : List V2) : List (V2 × V2) :=
  match poly.getLast? with
  | none => []
  | some last => edgesFrom last poly

theorem polyVertexStep_fold (d : Nat) (v : ℝ) (p : V3) (poly : List V2) (prev : V2) (row : List ℝ) :
    (poly.foldl (polyVertexStep d v p.z p)
      ⟨p.x - prev.x, p.y - prev.y, √((p.x - prev.x) ^ 2 + (p.y - prev.y) ^ 2 + p.z ^ 2), row⟩).row
      = addFn row fun i => ((edgesFrom prev poly).map fun e => v * segComp d i p e.1 e.2).sum := by
  induction poly generalizing prev row with
  | nil => simp [edgesFrom, addFn_zero]
  | cons q poly ih =>
    simp only [List.foldl_cons]
    have e : polyVertexStep d v p.z p
        ⟨p.x - prev.x, p.y - prev.y, √((p.x - prev.x) ^ 2 + (p.y - prev.y) ^ 2 + p.z ^ 2), row⟩ q
        = ⟨p.x - q.x, p.y - q.y, √((p.x - q.x) ^ 2 + (p.y - q.y) ^ 2 + p.z ^ 2),
            addFn row fun i => v * segComp d i p prev q⟩ := by
      unfold polyVertexStep
      simp only [addRow_eq]
      congr 1
      apply addFn_congr
      intro i _
      rw [edgeTerm_lin]
      rfl
    rw [e, ih, addFn_addFn]
    simp [edgesFrom]

theorem polyImageStep_eq (d : Nat) (v h : ℝ) (poly : List V2) (p : V3) (row : List ℝ) (m : ℤ) :
    polyImageStep d v h poly p row m
      = addFn row fun i => ((boundaryEdges poly).map fun e => v * segComp d i (p.lift (2 * m * h)) e.1 e.2).sum := by
  unfold polyImageStep boundaryEdges
  cases poly.getLast? with
  | none => simp [addFn_zero]
  | some last => exact polyVertexStep_fold d v (p.lift (2 * m * h)) poly last row

/-- total unit-voltage contribution of one closed polygon without cover -/
noncomputable def polyComp (d i : Nat) (poly : List V2) (p : V3) : ℝ :=
  ((boundaryEdges poly).map fun e => segComp d i p e.1 e.2).sum

/-- total unit-voltage contribution of polygons -/
noncomputable def polyContrib (d nmax : Nat) (h : ℝ) (polys : List (List V2)) (p : V3) (i : Nat) : ℝ :=
  (polys.map fun poly => ((images nmax h p).map fun p' => polyComp d i poly p').sum).sum

theorem polygonPotential_eq (x : List V3) (polys : List (List V2)) (v : ℝ) (d nmax : Nat) (h : ℝ)
    (out : List (List ℝ)) (hl : x.length = out.length) :
    polygonPotential x polys v d nmax h (some out)
      = List.zipWith (fun p row => addFn row fun i => v * polyContrib d nmax h polys p i) x out := by
  unfold polygonPotential
  simp only [Option.getD_some]
  have hstep : ∀ (poly : List V2) (p : V3) (row : List ℝ),
      (coverRange nmax).foldl (polyImageStep d v h poly p) row
        = addFn row fun i => ((images nmax h p).map fun p' => v * polyComp d i poly p').sum := by
    intro poly p row
    have e : polyImageStep d v h poly p = fun row k => addFn row
        ((fun (k : ℤ) i => ((boundaryEdges poly).map fun e => v * segComp d i (p.lift (2 * k * h)) e.1 e.2).sum) k) := by
      funext row k; exact polyImageStep_eq ..
    rw [e, foldl_addFn]
    simp only [images, List.map_map, Function.comp_def, polyComp, List.sum_map_mul_left]
  simp only [hstep]
  rw [foldl_rows _ x out hl fun poly p i => ((images nmax h p).map fun p' => v * polyComp d i poly p').sum]
  apply zipWith_congr
  intro p row
  congr 1
  funext i
  unfold polyContrib
  simp only [List.sum_map_mul_left]

/-! ### meshes -/

/-- total unit-scale contribution of a mesh -/
noncomputable def meshContrib (d nmax : Nat) (h : ℝ) (points : List V2) (edges : List (Nat × Nat))
    (polygons : List Nat) (potentials : List ℝ) (p : V3) (i : Nat) : ℝ :=
  ((edges.zip polygons).map fun e => ((images nmax h p).map fun p' =>
    potentials.getD e.2 0 * segComp d i p' (points.getD e.1.1 ⟨0, 0⟩) (points.getD e.1.2 ⟨0, 0⟩)).sum).sum

theorem meshPotential_eq (x : List V3) (points : List V2) (edges : List (Nat × Nat)) (polygons : List Nat)
    (potentials : List ℝ) (d nmax : Nat) (h : ℝ) (out : List (List ℝ)) (hl : x.length = out.length) :
    meshPotential x points edges polygons potentials d nmax h (some out)
      = List.zipWith (fun p row => addFn row fun i => meshContrib d nmax h points edges polygons potentials p i) x out := by
  unfold meshPotential
  simp only [Option.getD_some]
  have hstep : ∀ (e : (Nat × Nat) × Nat) (p : V3) (row : List ℝ),
      (coverRange nmax).foldl
        (meshStep d h (points.getD e.1.1 ⟨0, 0⟩) (points.getD e.1.2 ⟨0, 0⟩) (potentials.getD e.2 0) p) row
        = addFn row fun i => ((images nmax h p).map fun p' =>
            potentials.getD e.2 0 * segComp d i p' (points.getD e.1.1 ⟨0, 0⟩) (points.getD e.1.2 ⟨0, 0⟩)).sum := by
    intro e p row
    have e' : meshStep d h (points.getD e.1.1 ⟨0, 0⟩) (points.getD e.1.2 ⟨0, 0⟩) (potentials.getD e.2 0) p
        = fun row k => addFn row ((fun (k : ℤ) i => potentials.getD e.2 0 *
            segComp d i (p.lift (2 * k * h)) (points.getD e.1.1 ⟨0, 0⟩) (points.getD e.1.2 ⟨0, 0⟩)) k) := by
      funext row k
      unfold meshStep
      rw [addRow_eq]
      apply addFn_congr
      intro i _
      rw [edgeTerm_lin]
      rfl
    rw [e', foldl_addFn]
    simp only [images, List.map_map, Function.comp_def]
  simp only [hstep]
  rw [foldl_rows _ x out hl fun (e : (Nat × Nat) × Nat) p i => ((images nmax h p).map fun p' =>
    potentials.getD e.2 0 * segComp d i p' (points.getD e.1.1 ⟨0, 0⟩) (points.getD e.1.2 ⟨0, 0⟩)).sum]
  rfl

end Electrode
