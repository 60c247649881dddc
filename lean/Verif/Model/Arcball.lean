import Verif.Model.QuatC

/-
Model of `electrode/transformations.py`: the class `Arcball` and its functions, with either the Python functions or the compiled ones of
`transformations.c` that replace them in an installed package.
-/
namespace Electrode

/-- transformations.py:1515-1623: which functions the class calls -/
inductive BallLib
  | python | compiled
  deriving DecidableEq

/-- transformations.py:1548: a vector in space -/
abbrev Vec3 := Fin 3 → ℝ

/-- transformations.py:1610, 1613: `numpy.dot` of two vectors -/
def npDot (u v : Vec3) : ℝ := u 0 * v 0 + u 1 * v 1 + u 2 * v 2

/-- transformations.py:1609: `numpy.cross` -/
def npCross (u v : Vec3) : Vec3 := ![u 1 * v 2 - u 2 * v 1, u 2 * v 0 - u 0 * v 2, u 0 * v 1 - u 1 * v 0]

/-- transformations.py:1626-1636 `arcball_map_to_sphere`; transformations.c:3303-3315 has the same steps.  `none` is the division by a
radius of zero. -/
noncomputable def mapToSphere (point center : Fin 2 → ℝ) (radius : ℝ) : Option Vec3 := open Classical in
  if radius = 0 then none
  else
    let v0 := (point 0 - center 0) / radius
    let v1 := (center 1 - point 1) / radius
    let n := v0 * v0 + v1 * v1
    if 1 < n then
      let n := √n
      some ![v0 / n, v1 / n, 0]
    else some ![v0, v1, √(1 - n)]

/-- transformations.py:1639-1652 `arcball_constrain_to_axis` and transformations.c:3356-3378, which does not turn the vector to the side
of the viewer.  `none` is a vector of nan. -/
noncomputable def constrainTo (lib : BallLib) (point axis : Vec3) : Option Vec3 := open Classical in
  let d := npDot axis point
  let v : Vec3 := fun i => point i - axis i * d
  let n := √(npDot v v)
  if tEps < n then
    let v : Vec3 := if lib = .python ∧ v 2 < 0 then fun i => -v i else v
    some fun i => v i / n
  else if axis 2 = 1 then some ![1, 0, 0]
  else
    let m := √(axis 0 * axis 0 + axis 1 * axis 1)
    if m = 0 then none else some ![-axis 1 / m, axis 0 / m, 0]

/-- transformations.py:1655-1665 `arcball_nearest_axis`; a comparison with nan is false -/
noncomputable def nearestAxis (lib : BallLib) (point : Vec3) (axes : List Vec3) : Option Vec3 := open Classical in
  (axes.foldl (fun (s : Option Vec3 × ℝ) axis =>
    match constrainTo lib point axis with
    | none => s
    | some v =>
      let t := npDot v point
      if s.2 < t then (some axis, t) else s) (none, -1)).1

/-- transformations.py:1544-1561: the attributes of an `Arcball` -/
structure Ball where
  axis : Option Vec3
  axes : Option (List Vec3)
  radius : ℝ
  center : Fin 2 → ℝ
  vdown : Vec3
  constrain : Bool
  qdown : Quat
  qnow : Quat
  qpre : Quat

/-- transformations.py:1538-1561 `Arcball.__init__` with the quaternion that `initial` gives -/
def newBall (q : Quat) : Ball :=
  { axis := none, axes := none, radius := 1, center := ![0, 0], vdown := ![0, 0, 1], constrain := false, qdown := q, qnow := q, qpre := q }

/-- transformations.py:1538-1560: the argument `initial` of `Arcball` -/
inductive BallInit
  | none
  | quat (q : Quat)
  | matrix (M : Matrix (Fin 4) (Fin 4) ℝ)

/-- transformations.py:1550-1560: the first orientation; `fromMatrix` is `quaternion_from_matrix`.  `none` is a quaternion of nan. -/
noncomputable def initQuat (fromMatrix : Matrix (Fin 4) (Fin 4) ℝ → Quat) : BallInit → Option Quat := open Classical in fun
  | .none => some ![1, 0, 0, 0]
  | .matrix M => some (fromMatrix M)
  | .quat q => if vectorNorm q = 0 then none else some fun i => q i / vectorNorm q

/-- transformations.py:1563-1623: what a user can do with an `Arcball` -/
inductive BallOp
  | place (center : Fin 2 → ℝ) (radius : ℝ)
  | setaxes (axes : List Vec3)
  | constrain (value : Bool)
  | down (point : Fin 2 → ℝ)
  | drag (point : Fin 2 → ℝ)
  | next (acceleration : ℝ)
  | matrix

/-- transformations.py:1563-1574 `place` -/
def ballPlace (s : Ball) (center : Fin 2 → ℝ) (radius : ℝ) : Ball := { s with radius := radius, center := center }

/-- transformations.py:1576-1581 `setaxes`; `axes` is the tuple of the arguments and never None.  `none` is an axis of nan. -/
noncomputable def ballSetaxes (s : Ball) (axes : List Vec3) : Option Ball := open Classical in
  if ∃ a ∈ axes, vectorNorm a = 0 then none else some { s with axes := some (axes.map unitVector) }

/-- transformations.py:1593-1601 `down`; `none` also stands for the exception or the nan when there is no nearest axis -/
noncomputable def ballDown (lib : BallLib) (s : Ball) (point : Fin 2 → ℝ) : Option Ball :=
  match mapToSphere point s.center s.radius with
  | none => none
  | some v =>
    let s : Ball := { s with vdown := v, qdown := s.qnow, qpre := s.qnow }
    match s.constrain, s.axes with
    | true, some axes =>
      match nearestAxis lib v axes with
      | none => none
      | some a =>
        match constrainTo lib v a with
        | none => none
        | some w => some { s with axis := some a, vdown := w }
    | _, _ => some { s with axis := none }

/-- transformations.py:1605-1607: the point of the sphere that `drag` uses -/
noncomputable def dragPoint (lib : BallLib) (s : Ball) (point : Fin 2 → ℝ) : Option Vec3 :=
  match mapToSphere point s.center s.radius with
  | none => none
  | some v =>
    match s.axis with
    | none => some v
    | some a => constrainTo lib v a

/-- transformations.py:1603-1614 `drag` -/
noncomputable def ballDrag (lib : BallLib) (s : Ball) (point : Fin 2 → ℝ) : Option Ball := open Classical in
  match dragPoint lib s point with
  | none => none
  | some vnow =>
    let t := npCross s.vdown vnow
    if npDot t t < tEps then some { s with qpre := s.qnow, qnow := s.qdown }
    else
      let q : Quat := ![npDot s.vdown vnow, t 0, t 1, t 2]
      some { s with qpre := s.qnow, qnow := quatMul q s.qdown }

/-- transformations.py:1616-1619 `next`: `False` is passed as `spin`, the parameter `shortestpath` keeps its default -/
noncomputable def ballNext (lib : BallLib) (s : Ball) (acceleration : ℝ) : Option Ball :=
  match lib with
  | .python => some { s with qpre := s.qnow, qnow := quatSlerp s.qpre s.qnow (2 + acceleration) 0 true }
  | .compiled =>
    match cSlerp s.qpre s.qnow (2 + acceleration) 0 true with
    | .error _ => none
    | .ok q => some { s with qpre := s.qnow, qnow := q }

/-- transformations.py:1621-1623 `matrix`.  The compiled `quaternion_matrix` writes the normalised quaternion into its argument; that
the other attributes may be the same array is not modelled, see `c105_matrix` for why this makes no difference. -/
noncomputable def ballMatrix (lib : BallLib) (s : Ball) : Matrix (Fin 4) (Fin 4) ℝ × Ball :=
  match lib with
  | .python => (quatMatrix s.qnow, s)
  | .compiled => ((cQuatMatrix s.qnow).1, { s with qnow := (cQuatMatrix s.qnow).2 })

/-- transformations.py:1563-1623: one call -/
noncomputable def ballStep (lib : BallLib) (s : Ball) : BallOp → Option Ball
  | .place c r => some (ballPlace s c r)
  | .setaxes l => ballSetaxes s l
  | .constrain b => some { s with constrain := b }
  | .down p => ballDown lib s p
  | .drag p => ballDrag lib s p
  | .next a => ballNext lib s a
  | .matrix => some (ballMatrix lib s).2

/-- transformations.py:1563-1623: a history of calls -/
noncomputable def ballRun (lib : BallLib) (s : Ball) : List BallOp → Option Ball
  | [] => some s
  | op :: l => match ballStep lib s op with
    | none => none
    | some s' => ballRun lib s' l

end Electrode
