import Verif.Model.TransformC

/-
Model of `electrode/transformations.c`: Euler angles and quaternions.
-/
namespace Electrode

/-- transformations.c:2131-2208: the cases of the `switch` of `axis2tuple`, in their order: the two numbers and the tuple -/
def cCases : List ((Nat × Nat) × AxTuple) := [
  ((2054781043, 1937275258), ⟨0, 0, 0, 0⟩), ((2054781042, 1920498042), ⟨2, 1, 0, 1⟩), ((2037938802, 1920628857), ⟨1, 1, 0, 1⟩),
  ((2054716018, 1920628858), ⟨2, 0, 1, 1⟩), ((2054716019, 1937406074), ⟨2, 0, 1, 0⟩), ((2037938803, 1937406073), ⟨2, 0, 0, 0⟩),
  ((2038069618, 1920563833), ⟨1, 0, 1, 1⟩), ((2021292402, 1920563832), ⟨0, 1, 0, 1⟩), ((2054715762, 1920563322), ⟨2, 0, 0, 1⟩),
  ((2037938546, 1920563321), ⟨1, 1, 1, 1⟩), ((2021292146, 1920498296), ⟨0, 1, 1, 1⟩), ((2038069362, 1920498297), ⟨1, 0, 0, 1⟩),
  ((2021226611, 1937275256), ⟨0, 0, 1, 0⟩), ((2038069363, 1937275513), ⟨0, 1, 0, 0⟩), ((2054781554, 1920629114), ⟨2, 1, 1, 1⟩),
  ((2021227122, 1920629112), ⟨0, 0, 0, 1⟩), ((2021227123, 1937406328), ⟨2, 1, 0, 0⟩), ((2054781555, 1937406330), ⟨2, 1, 1, 0⟩),
  ((2021226610, 1920498040), ⟨0, 0, 1, 1⟩), ((2021292403, 1937341048), ⟨1, 0, 0, 0⟩), ((2038069619, 1937341049), ⟨1, 0, 1, 0⟩),
  ((2037938547, 1937340537), ⟨1, 1, 1, 0⟩), ((2054715763, 1937340538), ⟨1, 1, 0, 0⟩), ((2021292147, 1937275512), ⟨0, 1, 1, 0⟩)]

/-- transformations.c:2130: the first four bytes of the string read as an `int`; which byte counts most depends on the machine.  For
ASCII characters the number is positive.  (For a string with other characters `PyUnicode_AsASCIIString` returns NULL, which
`PyBytes_AsString` does not accept; not modelled.) -/
def cHash (little : Bool) (s : List Char) : Nat :=
  let s := if little then s else s.reverse
  s.foldr (fun c n => c.toNat + 256 * n) 0

/-- transformations.c:2110-2230 `axis2tuple`; without argument the tuple is 0, 0, 0, 0 -/
def cAxTuple (little : Bool) : Option AxArg → Py AxTuple
  | none => .ok ⟨0, 0, 0, 0⟩
  | some (.str s) =>
    if s.length = 4 then
      match cCases.find? fun e => cHash little s = e.1.1 ∨ cHash little s = e.1.2 with
      | some e => .ok e.2
      | none => .error .valueError
    else .error .valueError
  | some (.tup t) =>
    if (t.first ≠ 0 ∧ t.first ≠ 1 ∧ t.first ≠ 2) ∨ (t.parity ≠ 0 ∧ t.parity ≠ 1) ∨ (t.rep ≠ 0 ∧ t.rep ≠ 1) ∨ (t.frame ≠ 0 ∧ t.frame ≠ 1) then
      .error .valueError
    else .ok t

/-- transformations.c:2247, 2349, 2437 `next_axis` -/
def cNext (n : Nat) : Fin 4 := [1, 2, 0, 1].getD n 0

/-- transformations.c:2295-2321: `M[4*i+j] = v` one after the other on memory with any content -/
def cWrite (G : Matrix (Fin 4) (Fin 4) ℝ) (ws : List ((Fin 4 × Fin 4) × ℝ)) : Matrix (Fin 4) (Fin 4) ℝ :=
  ws.foldl (fun M w a b => if a = w.1.1 ∧ b = w.1.2 then w.2 else M a b) G

/-- transformations.c:2270-2325: the matrix for given axes; `G` is what the new array contains before -/
noncomputable def cEulerT (G : Matrix (Fin 4) (Fin 4) ℝ) (t : AxTuple) (ai aj ak : ℝ) : Matrix (Fin 4) (Fin 4) ℝ :=
  let i : Fin 4 := Fin.ofNat 4 t.first
  let j := cNext (t.first + t.parity)
  let k := cNext (t.first + 1 - t.parity)
  let (ai, ak) := if t.frame ≠ 0 then (ak, ai) else (ai, ak)
  let (ai, aj, ak) := if t.parity ≠ 0 then (-ai, -aj, -ak) else (ai, aj, ak)
  let si := Real.sin ai
  let sj := Real.sin aj
  let sk := Real.sin ak
  let ci := Real.cos ai
  let cj := Real.cos aj
  let ck := Real.cos ak
  let cc := ci * ck
  let cs := ci * sk
  let sc := si * ck
  let ss := si * sk
  let M := if t.rep ≠ 0 then cWrite G [((i, i), cj), ((i, j), sj * si), ((i, k), sj * ci), ((j, i), sj * sk), ((j, j), -cj * ss + cc),
      ((j, k), -cj * cs - sc), ((k, i), -sj * ck), ((k, j), cj * sc + cs), ((k, k), cj * cc - ss)]
    else cWrite G [((i, i), cj * ck), ((i, j), sj * sc - cs), ((i, k), sj * cc + ss), ((j, i), cj * sk), ((j, j), sj * ss + cc),
      ((j, k), sj * cs - sc), ((k, i), -sj), ((k, j), cj * si), ((k, k), cj * ci)]
  cWrite M [((0, 3), 0), ((1, 3), 0), ((2, 3), 0), ((3, 0), 0), ((3, 1), 0), ((3, 2), 0), ((3, 3), 1)]

/-- transformations.c:2239-2333 `euler_matrix` -/
noncomputable def cEulerMatrix (little : Bool) (G : Matrix (Fin 4) (Fin 4) ℝ) (ai aj ak : ℝ) (axes : Option AxArg) :
    Py (Matrix (Fin 4) (Fin 4) ℝ) :=
  match cAxTuple little axes with
  | .error e => .error e
  | .ok t => .ok (cEulerT G t ai aj ak)

/-- transformations.c:2368-2410: the angles for given axes -/
noncomputable def cEulerFromT (t : AxTuple) (M : Matrix (Fin 4) (Fin 4) ℝ) : ℝ × ℝ × ℝ := open Classical in
  let i : Fin 4 := Fin.ofNat 4 t.first
  let j := cNext (t.first + t.parity)
  let k := cNext (t.first + 1 - t.parity)
  let a : ℝ × ℝ × ℝ :=
    if t.rep ≠ 0 then
      let x := M i j
      let y := M i k
      let r := √(x * x + y * y)
      if tEps < r then (atan2 (M i j) (M i k), atan2 r (M i i), atan2 (M j i) (-M k i))
      else (atan2 (-M j k) (M j j), atan2 r (M i i), 0)
    else
      let x := M i i
      let y := M j i
      let r := √(x * x + y * y)
      if tEps < r then (atan2 (M k j) (M k k), atan2 (-M k i) r, atan2 (M j i) (M i i))
      else (atan2 (-M j k) (M j j), atan2 (-M k i) r, 0)
  let a : ℝ × ℝ × ℝ := if t.parity ≠ 0 then (-a.1, -a.2.1, -a.2.2) else a
  if t.frame ≠ 0 then (a.2.2, a.2.1, a.1) else a

/-- transformations.c:2342-2420 `euler_from_matrix` -/
noncomputable def cEulerFrom (little : Bool) (M : Matrix (Fin 4) (Fin 4) ℝ) (axes : Option AxArg) : Py (ℝ × ℝ × ℝ) :=
  match cAxTuple little axes with
  | .error e => .error e
  | .ok t => .ok (cEulerFromT t M)

/-- transformations.c:2460-2508: the quaternion for given axes; `g` is what the new array contains before -/
noncomputable def cQuatEulerT (g : Quat) (t : AxTuple) (ai aj ak : ℝ) : Quat :=
  let i : Fin 4 := Fin.ofNat 4 (t.first + 1)
  let j := cNext (t.first + 1 + t.parity - 1) + 1
  let k := cNext (t.first + 1 - t.parity) + 1
  let (ai, ak) := if t.frame ≠ 0 then (ak, ai) else (ai, ak)
  let aj := if t.parity ≠ 0 then -aj else aj
  let ai := ai / 2
  let aj := aj / 2
  let ak := ak / 2
  let si := Real.sin ai
  let sj := Real.sin aj
  let sk := Real.sin ak
  let ci := Real.cos ai
  let cj := Real.cos aj
  let ck := Real.cos ak
  let cc := ci * ck
  let cs := ci * sk
  let sc := si * ck
  let ss := si * sk
  let q : Quat := if t.rep ≠ 0 then
      Function.update (Function.update (Function.update (Function.update g i (cj * (cs + sc))) k (sj * (cs - sc))) j (sj * (cc + ss))) 0
        (cj * (cc - ss))
    else
      Function.update (Function.update (Function.update (Function.update g i (cj * sc - sj * cs)) k (cj * cs - sj * sc)) j
        (cj * ss + sj * cc)) 0 (cj * cc + sj * ss)
  if t.parity ≠ 0 then Function.update q j (q j * -1) else q

/-- transformations.c:2429-2517 `quaternion_from_euler` -/
noncomputable def cQuatEuler (little : Bool) (g : Quat) (ai aj ak : ℝ) (axes : Option AxArg) : Py Quat :=
  match cAxTuple little axes with
  | .error e => .error e
  | .ok t => .ok (cQuatEulerT g t ai aj ak)

/-- transformations.c:2526-2570 `quaternion_about_axis` -/
noncomputable def cQuatAbout (angle : ℝ) (a : Fin 3 → ℝ) : Quat := open Classical in
  let t := cNorm3 a
  if tEps < t then
    let t := Real.sin (angle / 2) / t
    ![Real.cos (angle / 2), a 0 * t, a 1 * t, a 2 * t]
  else ![Real.cos (angle / 2), a 0, a 1, a 2]

/-- transformations.c:674-723 `quaternion_matrix`: the matrix, and what the array of the caller contains afterwards -/
noncomputable def cQuatMatrix (q : Quat) : Matrix (Fin 4) (Fin 4) ℝ × Quat := open Classical in
  let n := cNorm4 q
  if n < tEps then (1, q)
  else
    let q : Quat := ![q 0 / n, q 1 / n, q 2 / n, q 3 / n]
    let x2 := q 1 + q 1
    let y2 := q 2 + q 2
    let z2 := q 3 + q 3
    let xx2 := q 1 * x2
    let yy2 := q 2 * y2
    let zz2 := q 3 * z2
    let yz2 := q 2 * z2
    let wx2 := q 0 * x2
    let xy2 := q 1 * y2
    let wz2 := q 0 * z2
    let xz2 := q 1 * z2
    let wy2 := q 0 * y2
    (!![1 - yy2 - zz2, xy2 - wz2, xz2 + wy2, 0; xy2 + wz2, 1 - xx2 - zz2, yz2 - wx2, 0; xz2 - wy2, yz2 + wx2, 1 - xx2 - yy2, 0;
      0, 0, 0, 1], q)

/-- transformations.c:2748-2785 `quaternion_multiply` -/
def cQuatMul (q1 q0 : Quat) : Quat :=
  ![-q1 1 * q0 1 - q1 2 * q0 2 - q1 3 * q0 3 + q1 0 * q0 0,
    q1 1 * q0 0 + q1 2 * q0 3 - q1 3 * q0 2 + q1 0 * q0 1,
    -q1 1 * q0 3 + q1 2 * q0 0 + q1 3 * q0 1 + q1 0 * q0 2,
    q1 1 * q0 2 - q1 2 * q0 1 + q1 3 * q0 0 + q1 0 * q0 3]

/-- transformations.c:2795-2829 `quaternion_conjugate` -/
def cQuatConj (q : Quat) : Quat := ![q 0, -q 1, -q 2, -q 3]

/-- transformations.c:2837-2879 `quaternion_inverse` -/
noncomputable def cQuatInv (q : Quat) : Py Quat := open Classical in
  let n := q 0 * q 0 + q 1 * q 1 + q 2 * q 2 + q 3 * q 3
  if n < tEps then .error .valueError else .ok ![q 0 / n, -q 1 / n, -q 2 / n, -q 3 / n]

/-- transformations.c:624-669, 2606-2615 `quaternion_from_matrix` with `isprecise=True`.  For a last entry of zero the code calls
`PyEval_RestoreThread(NULL)` before it raises the error; this is modelled as the error. -/
noncomputable def cQuatPrecise (M : Matrix (Fin 4) (Fin 4) ℝ) : Py Quat := open Classical in
  if cIsZero (M 3 3) then .error .valueError
  else
    let q : Quat :=
      if 0 < M 0 0 + M 1 1 + M 2 2 then
        let s := 1 / 2 / √(M 0 0 + M 1 1 + M 2 2 + M 3 3)
        ![1 / 4 / s, (M 2 1 - M 1 2) * s, (M 0 2 - M 2 0) * s, (M 1 0 - M 0 1) * s]
      else if M 1 1 < M 0 0 ∧ M 2 2 < M 0 0 then
        let s := 1 / 2 / √(M 0 0 - (M 1 1 + M 2 2) + M 3 3)
        ![(M 2 1 - M 1 2) * s, 1 / 4 / s, (M 1 0 + M 0 1) * s, (M 0 2 + M 2 0) * s]
      else if M 2 2 < M 1 1 then
        let s := 1 / 2 / √(M 1 1 - (M 0 0 + M 2 2) + M 3 3)
        ![(M 0 2 - M 2 0) * s, (M 1 0 + M 0 1) * s, 1 / 4 / s, (M 2 1 + M 1 2) * s]
      else
        let s := 1 / 2 / √(M 2 2 - (M 0 0 + M 1 1) + M 3 3)
        ![(M 1 0 - M 0 1) * s, (M 0 2 + M 2 0) * s, (M 2 1 + M 1 2) * s, 1 / 4 / s]
    if M 3 3 ≠ 1 then
      let s := 1 / √(M 3 3)
      .ok ![q 0 * s, q 1 * s, q 2 * s, q 3 * s]
    else .ok q

/-- transformations.c:2887-2972 `quaternion_slerp` -/
noncomputable def cSlerp (q0 q1 : Quat) (fraction : ℝ) (spin : ℤ) (shortest : Bool) : Py Quat := open Classical in
  let n := cNorm4 q0
  if n < tEps then .error .valueError
  else
    let q : Quat := ![q0 0 / n, q0 1 / n, q0 2 / n, q0 3 / n]
    let n := cNorm4 q1
    if n < tEps then .error .valueError
    else if |(|fraction| - 1)| < tEps then .ok ![q1 0 / n, q1 1 / n, q1 2 / n, q1 3 / n]
    else if cNotZero fraction then
      let a := (q 0 * q1 0 + q 1 * q1 1 + q 2 * q1 2 + q 3 * q1 3) / n
      if tEps < |(|a| - 1)| then
        let flip : Bool := shortest ∧ a < 0
        let a := if flip then -a else a
        let a := Real.arccos a + spin * Real.pi
        if cNotZero a then
          let s := 1 / Real.sin a
          let f0 := Real.sin ((1 - fraction) * a) * s
          let f1 := Real.sin (fraction * a) * s / n
          let f1 := if flip then -f1 else f1
          .ok ![q 0 * f0 + q1 0 * f1, q 1 * f0 + q1 1 * f1, q 2 * f0 + q1 2 * f1, q 3 * f0 + q1 3 * f1]
        else .ok q
      else .ok q
    else .ok q

end Electrode
