import Verif.Model.System

/-
Model of the plots of electrodes in `electrode/electrode.py` and `electrode/system.py`: which shapes, colors and labels are handed
to matplotlib.
-/
namespace Electrode

/-- electrode.py:290-294: `mpl.path.Path.MOVETO` and `LINETO` -/
inductive PathCode
  | moveto | lineto
  deriving DecidableEq

/-- electrode.py:235-305: what a plot adds to the axes: a patch of a path, a collection of ellipses with equal width and height (`none` where the width is
not a number), a text -/
inductive Drawing (χ : Type)
  | patch (vertices : List V2) (codes : List PathCode) (color : χ)
  | discs (centers : List V2) (widths : List (Option ℝ)) (color : χ)
  | text (at_ : V2) (label : String)

/-- electrode.py:252, 303: `p[:,0].mean(), p[:,1].mean()` -/
noncomputable def meanPoint (p : List V2) : V2 := ⟨(p.map (·.x)).sum / p.length, (p.map (·.y)).sum / p.length⟩

/-- electrode.py:239: `(a/np.pi)**.5*2`, not a number for negative areas -/
noncomputable def discWidth (a : ℝ) : Option ℝ := if a < 0 then none else some (√(a / Real.pi) * 2)

/-- electrode.py:249-251, 299-301: `self.name if label is None else label`, and nothing if that is empty -/
def plotLabel (name : String) (label : Option String) : Option String :=
  let l := label.getD name
  if l = "" then none else some l

/-- electrode.py:290-294: `vertices` and `codes`; `p[0]` raises `IndexError` for an empty path, `concatenate` raises `ValueError` if
there is no path at all -/
def polygonPath (paths : List (List V2)) : Py (List V2 × List PathCode) :=
  if paths.any (·.isEmpty) then .error .indexError
  else if paths.isEmpty then .error .valueError
  else .ok (paths.flatMap fun p => p ++ p.take 1, paths.flatMap fun p => .moveto :: List.replicate p.length .lineto)

/-- electrode.py:122-130, 235-254, 287-305 `plot` of the different electrodes.  For no points numpy raises
`IndexError` (the empty array has one dimension).  Line styles and alignment are left out. -/
noncomputable def Elec.plot {χ : Type} (e : Elec) (label : Option String) (color : χ) : Py (List (Drawing χ)) :=
  match e.shape with
  | .points ps as _ _ =>
    if ps.isEmpty then .error .indexError else .ok (.discs ps (as.map discWidth) color ::
      match plotLabel e.name label with
      | none => []
      | some l => [.text (meanPoint ps) l])
  | .polygons paths _ _ =>
    match polygonPath paths with
    | .error err => .error err
    | .ok vc => .ok (.patch vc.1 vc.2 color ::
      match plotLabel e.name label with
      | none => []
      | some l => paths.map fun p => .text (meanPoint p) l)
  | _ => .ok []

/-- system.py:371-372, 487-488: plotting one electrode after the other; the first exception ends it -/
noncomputable def plotAll {χ : Type} (label : Option String) : List (Elec × χ) → Py (List (List (Drawing χ)))
  | [] => .ok []
  | (e, c) :: t =>
    match e.plot label c with
    | .error err => .error err
    | .ok d =>
      match plotAll label t with
      | .error err => .error err
      | .ok ds => .ok (d :: ds)

/-- colors.py:26-39 `set3` -/
def set3 : List (Nat × Nat × Nat) :=
  [(141, 211, 199), (255, 255, 179), (190, 186, 218), (251, 128, 114), (128, 177, 211), (253, 180, 98), (179, 222, 105),
    (252, 205, 229), (217, 217, 217), (188, 128, 189), (204, 235, 197), (255, 237, 111)]

/-- system.py:359-372 `plot`: colors in turn; `alpha` is left out -/
noncomputable def Sys.plot (s : Sys) (label : Option String) : Py (List (List (Drawing (ℝ × ℝ × ℝ)))) :=
  plotAll label (s.els.zipIdx.map fun p =>
    let c := set3.getD (p.2 % 12) (0, 0, 0)
    (p.1, (((c.1 : ℝ) / 255, (c.2.1 : ℝ) / 255, (c.2.2 : ℝ) / 255) : ℝ × ℝ × ℝ)))

/-- system.py:483: `np.fabs(u).max()`, a `ValueError` for an empty array -/
noncomputable def maxAbs : List ℝ → Py ℝ
  | [] => .error .valueError
  | a :: t => .ok (t.foldl (fun m x => max m |x|) |a|)

/-- system.py:482-484: `um` -/
noncomputable def voltageScale (u : List ℝ) (um : Option ℝ) : Py ℝ :=
  match um with
  | some m => .ok m
  | none =>
    match maxAbs u with
    | .error e => .error e
    | .ok m => .ok (if m = 0 then 1 else m)

/-- system.py:458-489 `plot_voltages`; `u` is an array (a list cannot be divided); division by `um = 0` is left out; the color map
`cmap` maps numbers to colors -/
noncomputable def Sys.plotVoltages {χ : Type} (s : Sys) (u : Option (List ℝ)) (um : Option ℝ) (cmap : ℝ → χ) (label : Option String) :
    Py (List (List (Drawing χ))) :=
  let u := u.getD (s.els.map (·.dc))
  match voltageScale u um with
  | .error e => .error e
  | .ok um => plotAll label (s.els.zip (u.map fun ui => cmap ((ui / um + 1) / 2)))

end Electrode
