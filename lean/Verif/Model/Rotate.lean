import Verif.Model.Tensor
import Mathlib.Algebra.BigOperators.Fin
import Mathlib.Data.Matrix.Mul

/-
Model of `rotate_tensor`, `electrode/utils.py` lines 80-112.
-/
namespace Electrode

variable {R : Type*} [CommRing R]

/-- utils.py:107-109: An array with `rank` tensor axes of size 3 as a function of the index tuple.
Leading axes used for "arrays of tensors" are not listed: they are never touched as
long as `order <= rank`, and axis numbers below are counted within the tensor axes. -/
abbrev NArr (R : Type*) := Idx → R

/-- utils.py:109: Index tuple seen through numpy `swapaxes(p, q)`. -/
def swapIdx (p q : Nat) (idx : Idx) : Idx :=
  (idx.set p (idx.getD q 0)).set q (idx.getD p 0)

/-- utils.py:109: numpy `c.swapaxes(p, q)`. -/
def swapAxes (p q : Nat) (c : NArr R) : NArr R := fun idx => c (swapIdx p q idx)

/-- utils.py:109: numpy `np.dot(c, r)` for a matrix `r`: contracts the last axis of `c` with the
first axis of `r`. `n` is the number of the last axis. -/
def dotLast (n : Nat) (c : NArr R) (r : Matrix Axis Axis R) : NArr R :=
  fun idx => ∑ k, c (idx.set n k) * r k (idx.getD n 0)

/-- utils.py:109 `c = np.dot(c.swapaxes(n-i, -1), r).swapaxes(n-i, -1)`; axis `-1`
is axis `n`. -/
def rotateStep (n i : Nat) (r : Matrix Axis Axis R) (c : NArr R) : NArr R :=
  swapAxes (n - i) n (dotLast n (swapAxes (n - i) n c) r)

/-- utils.py:80-112 `rotate_tensor(c, r, order)` for an array with `rank >= 1` tensor
axes, `n = c.ndim - 1`.  With `order = none` all tensor axes are rotated (the code
takes `c.ndim - 1`, i.e. one leading axis). -/
def rotateTensor (rank : Nat) (c : NArr R) (r : Matrix Axis Axis R)
    (order : Option Nat) : NArr R :=
  (List.range (order.getD rank)).foldl (fun c i => rotateStep (rank - 1) i r c) c

end Electrode
