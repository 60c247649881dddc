import Verif.Lemmas.PolyIdent
import Verif.Lemmas.Kronecker
import Verif.Lemmas.Calculus

/-
The polynomial identities behind the derivatives of the edge terms.
-/
namespace Electrode
namespace EdgeId
open PExpr

/-- numerator over the common denominator `(r1 r2)^(2k-1) ((r1+r2)^2 - l2)^k` -/
def num (k i : Nat) : PExpr :=
  if k = 1 then .mul (.add (.v 4) (.v 5)) ((edgeNum 1).getD i (.c 0)) else (edgeNum k).getD i (.c 0)

/-- coordinate of the first vertex along the axis -/
def s1 (a : Axis) : PExpr := if a = 2 then .v 7 else .v (2 * a.val)
/-- coordinate of the second vertex along the axis -/
def s2 (a : Axis) : PExpr := if a = 2 then .v 7 else .v (2 * a.val + 1)

/-- `r1 r2` times the derivative of each variable along the axis -/
def δ (a : Axis) : Nat → PExpr
  | 4 => .mul (s1 a) (.v 5)
  | 5 => .mul (s2 a) (.v 4)
  | 6 => .c 0
  | 7 => if a = 2 then .mul (.v 4) (.v 5) else .c 0
  | i => if a ≠ 2 ∧ i / 2 = a.val then .mul (.v 4) (.v 5) else .c 0

/-- the numerator of the derivative, over the denominator of order `k + 1` -/
def deriv (k : Nat) (P : PExpr) (a : Axis) : PExpr :=
  let ρ : PExpr := .mul (.v 4) (.v 5)
  let E : PExpr := .sub (.pow (.add (.v 4) (.v 5)) 2) (.v 6)
  .sub (.sub (.mul (.mul ρ E) (diffS (δ a) P))
    (.mul (.c (2 * k - 1)) (.mul P (.mul E (.add (.mul (s1 a) (.pow (.v 5) 2)) (.mul (s2 a) (.pow (.v 4) 2)))))))
    (.mul (.c (2 * k)) (.mul P (.mul ρ (.mul (.add (.v 4) (.v 5)) (.add (.mul (s1 a) (.v 5)) (.mul (s2 a) (.v 4)))))))

/-- numerator `Q` of order `k+1` minus the derivative of the numerator `P` of order `k` -/
def ident (k : Nat) (P : PExpr) (a : Axis) (Q : PExpr) : PExpr := .sub Q (deriv k P a)

/-- polynomials that have to vanish: even and odd part in `z`, with `z^2` as variable 8 -/
def parts (e : PExpr) : List PExpr := [(splitSq 7 (.v 8) e).1, (splitSq 7 (.v 8) e).2]

/-- how the variables are expressed by free ones; the scale is chosen as `r2 = 1` -/
inductive Kind | free | r1 | r2

def Kind.zsq : Kind → PExpr
  | .free => .v 8
  | .r1 => .sub (.sub (.pow (.v 4) 2) (.pow (.v 0) 2)) (.pow (.v 2) 2)
  | .r2 => .sub (.sub (.c 1) (.pow (.v 1) 2)) (.pow (.v 3) 2)

def Kind.σ (kd : Kind) : Nat → PExpr
  | 5 => .c 1
  | 8 => kd.zsq
  | i => .v i

/-- degrees of the variables -/
def wt (i : Nat) : Nat := if i = 6 ∨ i = 8 ∨ i = 9 ∨ i = 10 then 2 else 1

/-- the check of one identity -/
def check (kd : Kind) (es : List Nat) (K : Nat) (e : PExpr) : Bool :=
  e.varsBelow 8 && (parts e).all fun p => p == .c 0 ||
    (homDeg wt p).isSome && kronCheckS 9 9 kd.σ es K p

/-- polynomials that have to vanish when both relations are needed: even and odd parts in `z`,
`r1`, `r2` and coefficients in `l2`, with `z^2, r1^2, r2^2` as variables 8, 9, 10 -/
def partsR (e : PExpr) : List PExpr :=
  (parts e).flatMap fun p => (coeffs 6 p).flatMap fun q =>
    let s := splitSq 4 (.v 9) q
    let t := splitSq 5 (.v 10) s.1
    let u := splitSq 5 (.v 10) s.2
    [t.1, t.2, u.1, u.2]

/-- `(x1 + x2)/2` when `x1 - x2 = 2`; the free variables are `r1^2/4, r2^2/4, y1/2, y2/2` -/
def mid : PExpr := .sub (.add (.sub (.v 0) (.v 1)) (.pow (.v 3) 2)) (.pow (.v 2) 2)

def σR : Nat → PExpr
  | 0 => .add mid (.c 1)
  | 1 => .sub mid (.c 1)
  | 2 => .mul (.c 2) (.v 2)
  | 3 => .mul (.c 2) (.v 3)
  | 8 => .sub (.mul (.c 4) (.sub (.v 1) (.pow (.v 3) 2))) (.pow (.sub mid (.c 1)) 2)
  | 9 => .mul (.c 4) (.v 0)
  | 10 => .mul (.c 4) (.v 1)
  | _ => .c 0

/-- the check of one part; the eliminated variables do not occur -/
def checkR (es : List Nat) (K : Nat) (p : PExpr) : Bool :=
  p == .c 0 || (!(p.hasVar 4 || p.hasVar 5 || p.hasVar 6 || p.hasVar 7) && (homDeg wt p).isSome && kronCheckS 4 11 σR es K p)

end EdgeId
end Electrode
