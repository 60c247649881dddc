import Verif.Model.Electrode

/-
Model of `electrode/adaptive.py`.
-/
namespace Electrode

/-- adaptive.py:49-52: one path; `n` is the number of points before it, `i` its number -/
def meshPath (n i len : Nat) : List (Nat × Nat) × List Nat :=
  let si := (List.range len).map (n + ·)
  ((rollRight si).zip si, List.replicate len (i + 2))

/-- adaptive.py:47-52: the loop over the paths -/
def meshLoop : Nat → Nat → List (List V2) → List (List (Nat × Nat)) × List (List Nat)
  | _, _, [] => ([], [])
  | n, i, p :: t =>
    let one := meshPath n i p.length
    let rest := meshLoop (n + p.length) (i + 1) t
    (one.1 :: rest.1, one.2 :: rest.2)

/-- adaptive.py:40-58 `paths_to_mesh`: points, segments and segment markers.  `np.concatenate` of an empty list raises. -/
def pathsToMesh (paths : List (List V2)) : Py (List V2 × List (Nat × Nat) × List Nat) :=
  if paths = [] then .error .valueError
  else .ok (paths.flatten, (meshLoop 0 0 paths).1.flatten, (meshLoop 0 0 paths).2.flatten)

/-- adaptive.py:63: `l[::s]` -/
def pyStride {α : Type*} (l : List α) (s : Int) : Py (List α) :=
  if s = 0 then .error .valueError
  else
    let m := if 0 < s then l else l.reverse
    .ok ((m.zipIdx.filter fun p => p.2 % s.natAbs = 0).map Prod.fst)

/-- adaptive.py:61-63, one transformation: `np.dot(p4, t.T)[::sign, :2]` with `p4` the rows `(x, y, 0, 1)` -/
def transformPath (t : Fin 4 → Fin 4 → ℝ) (sign : Int) (path : List V2) : Py (List V2) :=
  pyStride (path.map fun p => (⟨t 0 0 * p.x + t 0 1 * p.y + t 0 2 * 0 + t 0 3 * 1,
    t 1 0 * p.x + t 1 1 * p.y + t 1 2 * 0 + t 1 3 * 1⟩ : V2)) sign

/-- adaptive.py:61-63 `transformed_copy` -/
def transformedCopy (ts : List ((Fin 4 → Fin 4 → ℝ) × Int)) (path : List V2) : Py (List (List V2)) :=
  pySeq (ts.map fun t => transformPath t.1 t.2 path)

/-- adaptive.py:128: What `triangulate` returns: the corners of the triangles, the numbers of the three neighbours of each (`-1` where there is
none), and the arguments of the next call but for the areas. -/
structure TriOut (A : Type) where
  paths : List (List V2)
  neighbors : List (List Int)
  args : A

/-- adaptive.py:146-147, one triangle: `np.fabs(potentials.take(neighbors) - potentials[:, None]).max(1) > threshold`; negative
numbers count from the end, as in numpy -/
noncomputable def refineOne (potentials : List ℝ) (threshold : ℝ) (neighbors : List Int) (v : ℝ) : Py Bool :=
  open Classical in
  match pySeq (neighbors.map (pyGetInt potentials)) with
  | .error e => .error e
  | .ok ns => if ns = [] then .error .valueError else .ok (ns.any fun w => decide (threshold < |w - v|))

/-- adaptive.py:148 -/
noncomputable def newArea (up down area : ℝ) (refine : Bool) : ℝ := if refine then area / down else area * up

/-- adaptive.py:134-148: one round after the triangulation: the system, the result of `optimize` and the new areas.
`mk` makes the electrode of a triangle. -/
noncomputable def adaptRound {A : Type} (opt : List Elec → Py (List ℝ × ℝ)) (mk : List V2 → Py Elec) (fixed : List Elec)
    (threshold up down : ℝ) (o : TriOut A) : Py ((List Elec × List ℝ × ℝ) × List ℝ) :=
  match pySeq (o.paths.map mk) with
  | .error e => .error e
  | .ok es =>
    match opt (fixed ++ es) with
    | .error e => .error e
    | .ok (v, c) =>
      let potentials := v.drop fixed.length
      match pySeq (List.zipWith (refineOne potentials threshold) o.neighbors potentials) with
      | .error e => .error e
      | .ok refine =>
        .ok ((fixed ++ es, v, c), List.zipWith (newArea up down) (o.paths.map fun p => (areaCentroid p).1) refine)

/-- adaptive.py:127-149, the loop.  `fuel` bounds the number of rounds; `none` if it is used up.  `tri` is `triangulate`, called with
the arguments and the areas wanted. -/
noncomputable def adaptLoop {A : Type} (tri : A → Option (List ℝ) → TriOut A) (opt : List Elec → Py (List ℝ × ℝ))
    (mk : List V2 → Py Elec) (fixed : List Elec) (threshold : ℝ) (nmax : Nat) (up down : ℝ) :
    Nat → A → Option (List ℝ) → Option (List Elec × List ℝ × ℝ) → Option (Py (Option (List Elec × List ℝ × ℝ)))
  | 0, _, _, _ => none
  | fuel + 1, args, areas, res =>
    let o := tri args areas
    if nmax < o.paths.length then some (.ok res)
    else
      match adaptRound opt mk fixed threshold up down o with
      | .error e => some (.error e)
      | .ok (r, areas') => adaptLoop tri opt mk fixed threshold nmax up down fuel o.args (some areas') (some r)

/-- adaptive.py:70-149 `adapt_mesh` from the first call of `triangulate` on -/
noncomputable def adaptMesh {A : Type} (tri : A → Option (List ℝ) → TriOut A) (opt : List Elec → Py (List ℝ × ℝ))
    (mk : List V2 → Py Elec) (fixed : List Elec) (threshold : ℝ) (nmax : Nat) (up down : ℝ) (fuel : Nat) (args : A) :
    Option (Py (Option (List Elec × List ℝ × ℝ))) :=
  adaptLoop tri opt mk fixed threshold nmax up down fuel args none none

end Electrode
