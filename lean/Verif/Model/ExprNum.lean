import Verif.Model.PExpr

/-
Numerators of the closed forms in `electrode/expressions.py`
(`point_potential_expr` lines 37-86 and `edge_potential_expr` lines 120-172), copied
character by character from the source: a source line `d[i] += NUM*n` contributes `NUM`.
`electrode/cexpressions.pyx` lines 138-243 has the same text.
-/
namespace Electrode

namespace PointVars
/-- expressions.py:37: the argument `x` of `point_potential_expr` -/
abbrev x : PExpr := .v 0
/-- expressions.py:37: the argument `y` of `point_potential_expr` -/
abbrev y : PExpr := .v 1
/-- expressions.py:37: the argument `z` of `point_potential_expr` -/
abbrev z : PExpr := .v 2
/-- expressions.py:37: the argument `r` of `point_potential_expr` -/
abbrev r : PExpr := .v 3
end PointVars

namespace EdgeVars
/-- expressions.py:120: the argument `x1` of `edge_potential_expr` -/
abbrev x1 : PExpr := .v 0
/-- expressions.py:120: the argument `x2` of `edge_potential_expr` -/
abbrev x2 : PExpr := .v 1
/-- expressions.py:120: the argument `y1` of `edge_potential_expr` -/
abbrev y1 : PExpr := .v 2
/-- expressions.py:120: the argument `y2` of `edge_potential_expr` -/
abbrev y2 : PExpr := .v 3
/-- expressions.py:120: the argument `r1` of `edge_potential_expr` -/
abbrev r1 : PExpr := .v 4
/-- expressions.py:120: the argument `r2` of `edge_potential_expr` -/
abbrev r2 : PExpr := .v 5
/-- expressions.py:120: the argument `l2` of `edge_potential_expr` -/
abbrev l2 : PExpr := .v 6
/-- expressions.py:120: the argument `z` of `edge_potential_expr` -/
abbrev z : PExpr := .v 7
end EdgeVars

section
open PointVars

/-- expressions.py:40-40, numerators of `point_potential_expr` for `derivative == 0`. -/
def pointNum0 : List PExpr :=
  [[py| z]]

/-- expressions.py:43-45, numerators of `point_potential_expr` for `derivative == 1`. -/
def pointNum1 : List PExpr :=
  [[py| -3*x*z],
   [py| -3*y*z],
   [py| (r**2-3*z**2)]]

/-- expressions.py:48-52, numerators of `point_potential_expr` for `derivative == 2`. -/
def pointNum2 : List PExpr :=
  [[py| -(r**2-5*x**2)*z],
   [py| 5*x*y*z],
   [py| -x*(r**2-5*z**2)],
   [py| -(r**2-5*y**2)*z],
   [py| -y*(r**2-5*z**2)]]

/-- expressions.py:55-61, numerators of `point_potential_expr` for `derivative == 3`. -/
def pointNum3 : List PExpr :=
  [[py| 5*(r**2-7*x**2)*y*z],
   [py| (4*x**4-y**4+3*y**2*z**2+4*z**4+3*x**2*(y**2-9*z**2))],
   [py| (-x**4+4*y**4-27*y**2*z**2+4*z**4+3*x**2*(y**2+z**2))],
   [py| 5*x*(r**2-7*y**2)*z],
   [py| 5*x*z*(3*(x**2+y**2)-4*z**2)],
   [py| 5*y*z*(3*(x**2+y**2)-4*z**2)],
   [py| 5*x*y*(r**2-7*z**2)]]

/-- expressions.py:64-72, numerators of `point_potential_expr` for `derivative == 4`. -/
def pointNum4 : List PExpr :=
  [[py| (-21*x*(r**2-3*x**2)*y*z)],
   [py| (-(x*(4*x**4+x**2*(y**2-41*z**2)-3*(y**2-6*z**2)*(y**2+z**2))))],
   [py| (z*(-6*x**4+51*x**2*y**2-6*y**4-5*(x**2+y**2)*z**2+z**4))],
   [py| (-(z*(18*x**4-3*y**4+y**2*z**2+4*z**4+x**2*(15*y**2-41*z**2))))],
   [py| (-21*x*y*(r**2-3*y**2)*z)],
   [py| (3*x*((x**2+y**2)**2-12*(x**2+y**2)*z**2+8*z**4))],
   [py| (-(y*(-3*x**4+4*y**4-41*y**2*z**2+18*z**4+x**2*(y**2+15*z**2))))],
   [py| (3*(x**2-6*y**2)*(x**2+y**2)*z-(x**2-41*y**2)*z**3-4*z**5)],
   [py| (3*y*((x**2+y**2)**2-12*(x**2+y**2)*z**2+8*z**4))]]

/-- expressions.py:75-85, numerators of `point_potential_expr` for `derivative == 5`. -/
def pointNum5 : List PExpr :=
  [[py| (7*x*z*(2*x**4+8*y**4+7*y**2*z**2-z**4+x**2*(-23*y**2+z**2)))],
   [py| (7*x*y*(2*x**4-y**4+7*y**2*z**2+8*z**4+x**2*(y**2-23*z**2)))],
   [py| (21*x*z*(2*x**4-y**4+y**2*z**2+2*z**4+x**2*(y**2-7*z**2)))],
   [py| (7*y*z*(8*x**4-23*x**2*y**2+2*y**4+(7*x**2+y**2)*z**2-z**4))],
   [py| (-2*x**6-2*y**6+15*y**4*z**2+15*y**2*z**4-2*z**6+15*x**4*(y**2+z**2)+15*x**2*(y**4-12*y**2*z**2+z**4))],
   [py| (7*y*z*(8*x**4-y**4+y**2*z**2+2*z**4+x**2*(7*y**2-23*z**2)))],
   [py| (-((6*x**2-y**2)*(x**2+y**2)**2)+(101*x**2-11*y**2)*(x**2+y**2)*z**2-4*(29*x**2+y**2)*z**4+8*z**6)],
   [py| (-7*x*y*(x**4-2*y**4+23*y**2*z**2-8*z**4-x**2*(y**2+7*z**2)))],
   [py| (-7*x*z*(x**4-8*y**4+23*y**2*z**2-2*z**4-x**2*(7*y**2+z**2)))],
   [py| (21*y*z*(-x**4+2*y**4-7*y**2*z**2+2*z**4+x**2*(y**2+z**2)))],
   [py| ((x**2-6*y**2)*(x**2+y**2)**2+(-11*x**4+90*x**2*y**2+101*y**4)*z**2-4*(x**2+29*y**2)*z**4+8*z**6)]]

end

section
open EdgeVars

/-- expressions.py:130, numerator of `edge_potential_expr` for `derivative == 1`, `d[0]`. -/
def edgeNum1_0 : PExpr :=
  [py| -(y1-y2)*z]

/-- expressions.py:131, numerator of `edge_potential_expr` for `derivative == 1`, `d[1]`. -/
def edgeNum1_1 : PExpr :=
  [py| (x1-x2)*z]

/-- expressions.py:132, numerator of `edge_potential_expr` for `derivative == 1`, `d[2]`. -/
def edgeNum1_2 : PExpr :=
  [py| (x2*y1-x1*y2)]

/-- expressions.py:130-132, all numerators for `derivative == 1`. -/
def edgeNum1 : List PExpr :=
  [edgeNum1_0, edgeNum1_1, edgeNum1_2]

/-- expressions.py:135, numerator of `edge_potential_expr` for `derivative == 2`, `d[0]`. -/
def edgeNum2_0 : PExpr :=
  [py| ((r2**2*(-(l2*r2)+(r1+r2)**2*(2*r1+r2))*x1+r1**2*(-(l2*r1)+(r1+r2)**2*(r1+2*r2))*x2)*(y1-y2)*z)]

/-- expressions.py:136, numerator of `edge_potential_expr` for `derivative == 2`, `d[1]`. -/
def edgeNum2_1 : PExpr :=
  [py| ((y1-y2)*(r2**2*(-(l2*r2)+(r1+r2)**2*(2*r1+r2))*y1+r1**2*(-(l2*r1)+(r1+r2)**2*(r1+2*r2))*y2)*z)]

/-- expressions.py:137, numerator of `edge_potential_expr` for `derivative == 2`, `d[2]`. -/
def edgeNum2_2 : PExpr :=
  [py| ((-r1-r2)*(y1-y2)*(r1**2*(-(l2*r2**2)+(r1+r2)**2*(x2**2+y2**2))-(r2*(r1+r2)**3-l2*(r1**2-r1*r2+r2**2))*z**2))]

/-- expressions.py:138, numerator of `edge_potential_expr` for `derivative == 2`, `d[3]`. -/
def edgeNum2_3 : PExpr :=
  [py| ((-x1+x2)*(r2**2*(-(l2*r2)+(r1+r2)**2*(2*r1+r2))*y1+r1**2*(-(l2*r1)+(r1+r2)**2*(r1+2*r2))*y2)*z)]

/-- expressions.py:139, numerator of `edge_potential_expr` for `derivative == 2`, `d[4]`. -/
def edgeNum2_4 : PExpr :=
  [py| ((r1+r2)*(x1-x2)*(r1**2*(-(l2*r2**2)+(r1+r2)**2*(x2**2+y2**2))-(r2*(r1+r2)**3-l2*(r1**2-r1*r2+r2**2))*z**2))]

/-- expressions.py:135-139, all numerators for `derivative == 2`. -/
def edgeNum2 : List PExpr :=
  [edgeNum2_0, edgeNum2_1, edgeNum2_2, edgeNum2_3, edgeNum2_4]

/-- expressions.py:142, numerator of `edge_potential_expr` for `derivative == 3`, `d[0]`. -/
def edgeNum3_0 : PExpr :=
  [py| ((-y1+y2)*(3*r2**5*(l2-r2**2)**2*x1*y1+18*r1*r2**6*(-l2+r2**2)*x1*y1+3*r1**9*x2*y2+18*r1**8*r2*x2*y2+6*r1**3*r2**6*(9*x1*y1+2*x2*y1+2*x1*y2)+r1**4*r2**5*(33*x1*y1+26*x2*y1+26*x1*y2+8*x2*y2)-2*r1**2*r2**5*(l2*(6*x1*y1+x2*y1+x1*y2)-r2**2*(22*x1*y1+x2*y1+x1*y2))+2*r1**7*(-3*l2*x2*y2+r2**2*(x2*y1+x1*y2+22*x2*y2))+r1**5*(3*l2**2*x2*y2-2*l2*r2**2*(x2*y1+x1*y2+6*x2*y2)+r2**4*(8*x1*y1+26*x2*y1+26*x1*y2+33*x2*y2))+r1**6*(-18*l2*r2*x2*y2+r2**3*(12*x2*y1+12*x1*y2+54*x2*y2)))*z)]

/-- expressions.py:143, numerator of `edge_potential_expr` for `derivative == 3`, `d[1]`. -/
def edgeNum3_1 : PExpr :=
  [py| ((y1-y2)*(2*l2*(r1+r2)**2*(-(r1**2*r2**2*(r1+r2)*(r2**2*x1+r1**2*x2))+(3*r1*r2**4*x1+3*r2**5*x1+r1**3*r2**2*(x1-2*x2)+3*r1**5*x2+3*r1**4*r2*x2+r1**2*r2**3*(-2*x1+x2))*z**2)+(r1+r2)**4*(r1**2*r2**4*(2*r1+r2)*x1+r1**4*r2**2*(r1+2*r2)*x2+(-6*r1*r2**4*x1-3*r2**5*x1-3*r1**5*x2-6*r1**4*r2*x2-2*r1**2*r2**3*(2*x1+x2)-2*r1**3*r2**2*(x1+2*x2))*z**2)+l2**2*(r1**2*r2**5*x1-3*r2**5*x1*z**2+r1**5*x2*(r2**2-3*z**2))))]

/-- expressions.py:144, numerator of `edge_potential_expr` for `derivative == 3`, `d[2]`. -/
def edgeNum3_2 : PExpr :=
  [py| ((-x1+x2)*(2*l2*(r1+r2)**2*(-(r1**2*r2**2*(r1+r2)*(r2**2*y1+r1**2*y2))+(3*r1*r2**4*y1+3*r2**5*y1+r1**3*r2**2*(y1-2*y2)+3*r1**5*y2+3*r1**4*r2*y2+r1**2*r2**3*(-2*y1+y2))*z**2)+(r1+r2)**4*(r1**2*r2**4*(2*r1+r2)*y1+r1**4*r2**2*(r1+2*r2)*y2+(-6*r1*r2**4*y1-3*r2**5*y1-3*r1**5*y2-6*r1**4*r2*y2-2*r1**2*r2**3*(2*y1+y2)-2*r1**3*r2**2*(y1+2*y2))*z**2)+l2**2*(r1**2*r2**5*y1-3*r2**5*y1*z**2+r1**5*y2*(r2**2-3*z**2))))]

/-- expressions.py:145, numerator of `edge_potential_expr` for `derivative == 3`, `d[3]`. -/
def edgeNum3_3 : PExpr :=
  [py| ((y1-y2)*(-2*l2*(r1+r2)*(r1**2*r2**2*(r1+r2)**2*(r1**2+r2**2)-3*r2**5*(2*r1+r2)*y1**2-2*r1**2*r2**2*(r1**2-r1*r2+r2**2)*y1*y2-3*r1**5*(r1+2*r2)*y2**2)+(r1+r2)**3*(r1**2*r2**2*(r1+r2)**2*(r1**2+r1*r2+r2**2)+r2**4*(-8*r1**2-9*r1*r2-3*r2**2)*y1**2-4*r1**2*r2**2*(r1**2+3*r1*r2+r2**2)*y1*y2+r1**4*(-3*r1**2-9*r1*r2-8*r2**2)*y2**2)+l2**2*(r1**2*r2**5-3*r2**5*y1**2+r1**5*(r2**2-3*y2**2)))*z)]

/-- expressions.py:146, numerator of `edge_potential_expr` for `derivative == 3`, `d[4]`. -/
def edgeNum3_4 : PExpr :=
  [py| ((y1-y2)*z*(3*l2**2*(r1**2*r2**5+r1**5*(x2**2+y2**2)-r2**5*z**2)+3*(r1+r2)**5*(r1**2*(r1*r2**3+r2**4+r1**2*(x2**2+y2**2))-r2*(r1+r2)*(r1**2+r2**2)*z**2)-2*l2*(r1+r2)**3*(3*r1**4*(x2**2+y2**2)-3*r2**4*z**2+r1**2*r2**2*(3*r2**2+z**2))))]

/-- expressions.py:147, numerator of `edge_potential_expr` for `derivative == 3`, `d[5]`. -/
def edgeNum3_5 : PExpr :=
  [py| ((-x1+x2)*z*(3*l2**2*(r1**2*r2**5+r1**5*(x2**2+y2**2)-r2**5*z**2)+3*(r1+r2)**5*(r1**2*(r1*r2**3+r2**4+r1**2*(x2**2+y2**2))-r2*(r1+r2)*(r1**2+r2**2)*z**2)-2*l2*(r1+r2)**3*(3*r1**4*(x2**2+y2**2)-3*r2**4*z**2+r1**2*r2**2*(3*r2**2+z**2))))]

/-- expressions.py:148, numerator of `edge_potential_expr` for `derivative == 3`, `d[6]`. -/
def edgeNum3_6 : PExpr :=
  [py| ((y1-y2)*(2*l2*(r1+r2)**2*(-(r1**2*r2**2*(r1+r2)*(r2**2*y1+r1**2*y2))+(3*r1*r2**4*y1+3*r2**5*y1+r1**3*r2**2*(y1-2*y2)+3*r1**5*y2+3*r1**4*r2*y2+r1**2*r2**3*(-2*y1+y2))*z**2)+(r1+r2)**4*(r1**2*r2**4*(2*r1+r2)*y1+r1**4*r2**2*(r1+2*r2)*y2+(-6*r1*r2**4*y1-3*r2**5*y1-3*r1**5*y2-6*r1**4*r2*y2-2*r1**2*r2**3*(2*y1+y2)-2*r1**3*r2**2*(y1+2*y2))*z**2)+l2**2*(r1**2*r2**5*y1-3*r2**5*y1*z**2+r1**5*y2*(r2**2-3*z**2))))]

/-- expressions.py:142-148, all numerators for `derivative == 3`. -/
def edgeNum3 : List PExpr :=
  [edgeNum3_0, edgeNum3_1, edgeNum3_2, edgeNum3_3, edgeNum3_4, edgeNum3_5, edgeNum3_6]

/-- expressions.py:151, numerator of `edge_potential_expr` for `derivative == 4`, `d[0]`. -/
def edgeNum4_0 : PExpr :=
  [py| ((y1-y2)*z*(l2**3*(-12*r1**2*r2**7*y1+15*r2**7*y1*(y1**2+z**2)+r1**7*(-12*r2**2*y2+15*y2*(y2**2+z**2)))+(r1+r2)**4*(-15*r2**9*y1*(y1**2+z**2)+r1**7*r2**2*(r2**2*(4*y1+46*y2)+y2*(12*x1*x2+26*x2**2-6*y1*y2-61*y2**2)+(-6*y1-61*y2)*z**2)+2*r1**5*r2**4*(2*x1**2*y2+8*x1*x2*(y1+4*y2)+r2**2*(12*y1+5*y2)-2*y1*(-4*x2**2+y2*(y1+4*y2))-2*(4*y1+y2)*z**2)+2*r1**4*r2**5*(8*x1**2*y2+8*x1*x2*(4*y1+y2)+r2**2*(23*y1+2*y2)-2*y1*(-x2**2+4*y1*y2+y2**2)-2*(y1+4*y2)*z**2)-4*r1*r2**8*y1*(-2*x1**2+13*(y1**2+z**2))+2*r1**3*r2**6*(20*r2**2*y1+24*x1*x2*y1+3*x1**2*(4*y1+y2)-3*(4*y1+3*y2)*(y1**2+z**2))+r1**2*r2**7*(12*r2**2*y1+26*x1**2*y1+12*x1*x2*y1-(61*y1+6*y2)*(y1**2+z**2))+4*r1**8*r2*y2*(10*r2**2+2*x2**2-13*(y2**2+z**2))+r1**9*(12*r2**2*y2-15*y2*(y2**2+z**2))+2*r1**6*r2**3*(24*x1*x2*y2+3*x2**2*(y1+4*y2)+r2**2*(5*y1+12*y2)-3*(3*y1+4*y2)*(y2**2+z**2)))-l2*(r1+r2)**2*(-45*r2**9*y1*(y1**2+z**2)+r1**7*r2**2*(r2**2*(8*y1+122*y2)+y2*(24*x1*x2-4*x2**2-12*y1*y2-145*y2**2)+(-12*y1-145*y2)*z**2)+2*r1**4*r2**5*(-22*x1**2*y2+8*x1*x2*(-2*y1+y2)+r2**2*(61*y1+4*y2)-y1*(x2**2+14*y1*y2+5*y2**2)+(-5*y1-14*y2)*z**2)+2*r1**5*r2**4*(-22*x2**2*y1+8*x1*x2*(y1-2*y2)-x1**2*y2-5*y1**2*y2-14*y1*y2**2+r2**2*(30*y1+11*y2)-14*y1*z**2-5*y2*z**2)-2*r1*r2**8*y1*(-4*x1**2+71*(y1**2+z**2))+2*r1**3*r2**6*(56*r2**2*y1+24*x1*x2*y1-3*x1**2*(8*y1+y2)-3*(8*y1+5*y2)*(y1**2+z**2))+r1**2*r2**7*(36*r2**2*y1-4*x1**2*y1+24*x1*x2*y1-(145*y1+12*y2)*(y1**2+z**2))+2*r1**8*r2*y2*(56*r2**2+4*x2**2-71*(y2**2+z**2))+r1**9*(36*r2**2*y2-45*y2*(y2**2+z**2))+2*r1**6*r2**3*(24*x1*x2*y2-3*x2**2*(y1+8*y2)+r2**2*(11*y1+30*y2)-3*(5*y1+8*y2)*(y2**2+z**2)))+l2**2*(104*r1**3*r2**8*y1+16*r1**6*r2**5*y2-45*r2**9*y1*(y1**2+z**2)+r1**7*r2**2*(r2**2*(4*y1+106*y2)+y2*(12*x1*x2-46*x2**2-6*y1*y2-115*y2**2)+(-6*y1-115*y2)*z**2)+8*r1**5*r2**4*(2*r2**2*y1-2*x2**2*y1-y2*(x1**2+y1**2+2*y1*y2)-(2*y1+y2)*z**2)-8*r1*r2**8*y1*(x1**2+16*(y1**2+z**2))+r1**2*r2**7*(36*r2**2*y1-46*x1**2*y1+12*x1*x2*y1-(115*y1+6*y2)*(y1**2+z**2))+24*r1**8*r2*y2*(4*r2**2-5*(y2**2+z**2))+r1**9*(36*r2**2*y2-45*y2*(y2**2+z**2))+2*r1**4*r2**5*(r2**2*(53*y1+2*y2)-4*(2*x1**2*y2+y1*(x2**2+2*y1*y2+y2**2)+(y1+2*y2)*z**2)))))]

/-- expressions.py:152, numerator of `edge_potential_expr` for `derivative == 4`, `d[1]`. -/
def edgeNum4_1 : PExpr :=
  [py| ((-y1+y2)*((r1+r2)**5*(r1**2*r2**2*(2*r1*r2*(r1*r2*(r1**4+2*r1**3*r2+2*r1*r2**3+r2**4)+r2**3*(2*r1+r2)*x1**2+2*r1*r2*(r1**2+3*r1*r2+r2**2)*x1*x2+r1**3*(r1+4*r2)*x2**2)-r2**4*(r1+r2)*(4*r1+3*r2)*y1**2+r1**5*(-3*r1-7*r2)*y2**2)+(-15*r1**8*x2**2+r1**3*r2**5*(-35*r2**2-24*x1**2-36*x1*x2)+12*r1**5*r2**3*(r2**2-3*x1*x2-2*x2**2)+15*r2**8*y1**2-3*r1**2*r2**6*(5*r2**2+6*x1**2+4*x1*x2-10*y1**2)+r1*r2**7*(-8*x1**2+37*y1**2)-2*r1**6*r2**2*(11*r2**2+6*x1*x2+9*x2**2-15*y2**2)+r1**7*r2*(-35*r2**2-8*x2**2+37*y2**2)-2*r1**4*r2**4*(13*r2**2+2*(x1**2+11*x1*x2+x2**2-y1**2-y2**2)))*z**2+r2*(37*r1**7+30*r1**6*r2+8*r1**4*r2**3+30*r1**2*r2**5+37*r1*r2**6+15*r2**7)*z**4)+l2**2*(r1+r2)*(r1**2*r2**2*(2*r1*r2*(3*r1*r2*(r1+r2)**2*(r1**2+r2**2)-r2**3*(4*r1+r2)*x1**2+2*r1*r2*(r1**2-r1*r2+r2**2)*x1*x2-r1**3*(r1+4*r2)*x2**2)-r2**4*(r1+r2)*(8*r1+9*r2)*y1**2-r1**4*(r1+r2)*(9*r1+8*r2)*y2**2)+(-45*r1**8*x2**2-12*r1**6*(r2**4+r2**2*x1*x2)-12*r1**5*(r2**5-r2**3*x1*x2)+45*r2**8*y1**2-2*r1**4*r2**4*(21*r2**2-4*x1**2+6*x1*x2-4*y1**2)+r1**3*r2**5*(-85*r2**2+8*x1**2+12*x1*x2+8*y1**2)+r1**2*r2**6*(-45*r2**2+38*x1**2-12*x1*x2+38*y1**2)+r1*r2**7*(8*x1**2+83*y1**2)+r1**7*r2*(-85*r2**2+8*x2**2+83*y2**2))*z**2+r2*(83*r1**7+8*r1**4*r2**3+8*r1**3*r2**4+38*r1**2*r2**5+83*r1*r2**6+45*r2**7)*z**4)+l2**3*(-2*r1**4*r2**7-15*r2**7*z**2*(y1**2+z**2)+3*r1**2*r2**7*(y1**2+5*z**2)+r1**7*(-2*r2**4+3*r2**2*y2**2+15*x2**2*z**2))-l2*(r1+r2)**3*(45*r2**8*z**2*(y1**2+z**2)+r1**8*(6*r2**4-9*r2**2*y2**2-45*x2**2*z**2)-3*r1**2*r2**6*(3*r2**2*y1**2+(15*r2**2-4*x1*(x1-2*x2)-20*y1**2)*z**2-20*z**4)+2*r1**4*r2**4*(r2**2*(3*r2**2-x1*(x1-4*x2)-5*y1**2)+(-31*r2**2+x1**2+20*x1*x2+5*y1**2+4*y2**2)*z**2+9*z**4)+2*r1**5*r2**3*(6*r2**4+4*r2**2*x1*x2+(-14*r2**2-12*x1*x2+21*x2**2+9*y2**2)*z**2+9*z**4)+r1**3*r2**5*(r2**2*(2*x1**2-19*y1**2)+(-95*r2**2+42*x1**2-24*x1*x2+18*y1**2)*z**2+18*z**4)+r1*r2**7*z**2*(-8*x1**2+97*(y1**2+z**2))+2*r1**6*r2**2*(5*r2**4+r2**2*(4*x1*x2-4*y2**2-31*z**2)+6*z**2*(x2*(-2*x1+x2)+5*(y2**2+z**2)))+r1**7*r2*(12*r2**4+r2**2*(2*x2**2-19*y2**2-95*z**2)+z**2*(-8*x2**2+97*(y2**2+z**2))))))]

/-- expressions.py:153, numerator of `edge_potential_expr` for `derivative == 4`, `d[2]`. -/
def edgeNum4_2 : PExpr :=
  [py| ((-y1+y2)*(-3*l2**3*(r1**2*r2**7*x1-5*r2**7*x1*y1**2+r1**7*x2*(r2**2-5*y2**2))+l2**2*(24*r1**3*r2**8*x1+r1**4*r2**7*(17*x1+2*x2)-120*r1*r2**8*x1*y1**2-45*r2**9*x1*y1**2+9*r1**9*x2*(r2**2-5*y2**2)+24*r1**8*r2*x2*(r2**2-5*y2**2)+3*r1**2*r2**7*(3*r2**2*x1+y1*(-23*x1*y1-2*x2*y1-4*x1*y2))+r1**7*r2**2*(r2**2*(2*x1+17*x2)-3*y2*(4*x2*y1+2*x1*y2+23*x2*y2)))-l2*(r1+r2)**2*(-150*r1*r2**8*x1*y1**2-45*r2**9*x1*y1**2+6*r1**3*r2**6*(5*r2**2*x1-4*x2*y1**2-8*x1*y1*y2)+r1**4*r2**5*(r2**2*(33*x1+4*x2)+16*x2*y1*(y1-y2)+8*x1*(4*y1-y2)*y2)+9*r1**9*x2*(r2**2-5*y2**2)+30*r1**8*r2*x2*(r2**2-5*y2**2)+8*r1**5*r2**4*(r2**2*(2*x1+x2)-x2*y1*(y1-4*y2)+2*x1*y2*(-y1+y2))+3*r1**2*r2**7*(3*r2**2*x1+y1*(-47*x1*y1-4*x2*y1-8*x1*y2))+8*r1**6*r2**3*(r2**2*(x1+2*x2)-3*y2*(2*x2*y1+x1*y2))+r1**7*r2**2*(r2**2*(4*x1+33*x2)-3*y2*(8*x2*y1+4*x1*y2+47*x2*y2)))+(r1+r2)**4*(-60*r1*r2**8*x1*y1**2-15*r2**9*x1*y1**2+3*r1**9*x2*(r2**2-5*y2**2)+12*r1**8*r2*x2*(r2**2-5*y2**2)+r1**4*r2**5*(r2**2*(19*x1+2*x2)-16*x2*y1*(2*y1+y2)-8*x1*y2*(8*y1+y2))+8*r1**5*r2**4*(r2**2*(2*x1+x2)-2*x1*y2*(y1+2*y2)-x2*y1*(y1+8*y2))+3*r1**2*r2**7*(r2**2*x1+y1*(-29*x1*y1-2*x2*y1-4*x1*y2))+r1**7*r2**2*(r2**2*(2*x1+19*x2)-3*y2*(4*x2*y1+2*x1*y2+29*x2*y2))+12*r1**3*r2**6*(r2**2*x1-2*y1*(x2*y1+2*x1*(y1+y2)))+8*r1**6*r2**3*(r2**2*(x1+2*x2)-3*y2*(x1*y2+2*x2*(y1+y2)))))*z)]

/-- expressions.py:154, numerator of `edge_potential_expr` for `derivative == 4`, `d[3]`. -/
def edgeNum4_3 : PExpr :=
  [py| (-3*(y1-y2)*z*(l2*(r1+r2)**4*(r1**2*r2**2*(-12*r1*r2**4*x1-9*r2**5*x1-9*r1**5*x2-12*r1**4*r2*x2-4*r1**2*r2**3*x2-4*r1**3*x1*(x2**2+y2**2))+(-4*r1**3*r2**4*x1+20*r1*r2**6*x1+15*r2**7*x1+15*r1**7*x2+20*r1**6*r2*x2-4*r1**4*r2**3*x2+4*r1**2*r2**5*x2)*z**2)+(r1+r2)**6*(r1**2*r2**4*(2*r1**3+4*r1**2*r2+6*r1*r2**2+3*r2**3)*x1+r1**4*r2**2*(3*r1**3+6*r1**2*r2+4*r1*r2**2+2*r2**3)*x2+(-10*r1*r2**6*x1-5*r2**7*x1-5*r1**7*x2-10*r1**6*r2*x2-2*r1**2*r2**5*(4*x1+x2)-2*r1**3*r2**4*(3*x1+2*x2)-2*r1**4*r2**3*(2*x1+3*x2)-2*r1**5*r2**2*(x1+4*x2))*z**2)+l2**3*(-3*r1**2*r2**7*x1+5*r2**7*x1*z**2+r1**7*x2*(-3*r2**2+5*z**2))+l2**2*(24*r1**3*r2**8*x1+r1**4*r2**7*(17*x1+2*x2)-40*r1*r2**8*x1*z**2-15*r2**9*x1*z**2+r1**7*r2**2*(r2**2*(2*x1+17*x2)+(-2*x1-27*x2)*z**2)+r1**2*r2**7*(9*r2**2*x1+(-27*x1-2*x2)*z**2)+r1**9*(9*r2**2*x2-15*x2*z**2)+r1**8*(24*r2**3*x2-40*r2*x2*z**2))))]

/-- expressions.py:155, numerator of `edge_potential_expr` for `derivative == 4`, `d[4]`. -/
def edgeNum4_4 : PExpr :=
  [py| (-3*(y1-y2)*(-(l2*(r1+r2)**2*(r1**2*r2**4*(r1+r2)**2*(4*r1**3+12*r1*r2**2+9*r2**3)*y1+r2**7*(-47*r1**2-50*r1*r2-15*r2**2)*y1**3+r1**2*r2**2*(r1**2*(r1+r2)**2*(9*r1**3+12*r1**2*r2+4*r2**3)-4*r2**2*(2*r1**3-4*r1**2*r2+6*r1*r2**2+3*r2**3)*y1**2)*y2-4*r1**4*r2**2*(3*r1**3+6*r1**2*r2-4*r1*r2**2+2*r2**3)*y1*y2**2+r1**7*(-15*r1**2-50*r1*r2-47*r2**2)*y2**3))+(r1+r2)**4*(r1**2*r2**4*(r1+r2)**2*(2*r1**3+4*r1**2*r2+6*r1*r2**2+3*r2**3)*y1+r2**6*(-16*r1**3-29*r1**2*r2-20*r1*r2**2-5*r2**3)*y1**3+r1**2*r2**2*(r1**2*(r1+r2)**2*(3*r1**3+6*r1**2*r2+4*r1*r2**2+2*r2**3)-2*r2**2*(4*r1**3+16*r1**2*r2+12*r1*r2**2+3*r2**3)*y1**2)*y2-2*r1**4*r2**2*(3*r1**3+12*r1**2*r2+16*r1*r2**2+4*r2**3)*y1*y2**2+r1**6*(-5*r1**3-20*r1**2*r2-29*r1*r2**2-16*r2**3)*y2**3)+l2**3*(-3*r1**2*r2**7*y1+5*r2**7*y1**3+r1**7*(-3*r2**2*y2+5*y2**3))+l2**2*(24*r1**3*r2**8*y1-40*r1*r2**8*y1**3-15*r2**9*y1**3+r1**4*r2**7*(17*y1+2*y2)+r1**2*r2**7*y1*(9*r2**2-23*y1**2-6*y1*y2)+r1**9*(9*r2**2*y2-15*y2**3)+r1**8*(24*r2**3*y2-40*r2*y2**3)+r1**7*r2**2*((-6*y1-23*y2)*y2**2+r2**2*(2*y1+17*y2))))*z)]

/-- expressions.py:156, numerator of `edge_potential_expr` for `derivative == 4`, `d[5]`. -/
def edgeNum4_5 : PExpr :=
  [py| (3*(y1-y2)*(l2*(r1+r2)**5*(-(r1**4*r2**4*(3*r1**2+r1*r2+3*r2**2))+2*r1**2*r2**2*(9*r1**4+3*r1**3*r2+r1**2*r2**2+3*r1*r2**3+9*r2**4)*z**2+(-15*r1**6-5*r1**5*r2+r1**4*r2**2+3*r1**3*r2**3+r1**2*r2**4-5*r1*r2**5-15*r2**6)*z**4)+(r1+r2)**7*(r1**4*r2**4*(r1**2+r1*r2+r2**2)-6*r1**2*r2**2*(r1**4+r1**3*r2+r1**2*r2**2+r1*r2**3+r2**4)*z**2+5*(r1**6+r1**5*r2+r1**4*r2**2+r1**3*r2**3+r1**2*r2**4+r1*r2**5+r2**6)*z**4)+l2**2*(r1+r2)**3*(r1**4*r2**4*(3*r1**2-r1*r2+3*r2**2)-2*r1**2*r2**2*(9*r1**4-3*r1**3*r2+r1**2*r2**2-3*r1*r2**3+9*r2**4)*z**2+(15*r1**6-5*r1**5*r2-r1**4*r2**2+3*r1**3*r2**3-r1**2*r2**4-5*r1*r2**5+15*r2**6)*z**4)-l2**3*(r1**4*r2**4*(r1**3+r2**3)-6*r1**2*r2**2*(r1**5+r2**5)*z**2+5*(r1**7+r2**7)*z**4)))]

/-- expressions.py:157, numerator of `edge_potential_expr` for `derivative == 4`, `d[6]`. -/
def edgeNum4_6 : PExpr :=
  [py| ((-x1+x2)*(l2**2*(r1+r2)*(r1**4*r2**4*(r1+r2)**2*(3*r1**2-r1*r2+3*r2**2)-3*r1**2*r2**7*(5*r1+3*r2)*y1**2-4*r1**4*r2**4*(r1**2-r1*r2+r2**2)*y1*y2-3*r1**7*r2**2*(3*r1+5*r2)*y2**2+(-(r1**2*r2**2*(r1+r2)**2*(9*r1**4-3*r1**3*r2+r1**2*r2**2-3*r1*r2**3+9*r2**4))+15*r2**7*(5*r1+3*r2)*y1**2+12*r1**2*r2**2*(r1**4-r1**3*r2+r1**2*r2**2-r1*r2**3+r2**4)*y1*y2+15*r1**7*(3*r1+5*r2)*y2**2)*z**2)+(r1+r2)**5*(r1**4*r2**4*(r1+r2)**2*(r1**2+r1*r2+r2**2)+r1**2*r2**6*(-8*r1**2-9*r1*r2-3*r2**2)*y1**2-4*r1**4*r2**4*(r1**2+3*r1*r2+r2**2)*y1*y2+r1**6*r2**2*(-3*r1**2-9*r1*r2-8*r2**2)*y2**2+(-3*r1**2*r2**2*(r1+r2)**2*(r1**4+r1**3*r2+r1**2*r2**2+r1*r2**3+r2**4)+r2**4*(8*r1**4+24*r1**3*r2+48*r1**2*r2**2+45*r1*r2**3+15*r2**4)*y1**2+4*r1**2*r2**2*(3*r1**4+9*r1**3*r2+11*r1**2*r2**2+9*r1*r2**3+3*r2**4)*y1*y2+r1**4*(15*r1**4+45*r1**3*r2+48*r1**2*r2**2+24*r1*r2**3+8*r2**4)*y2**2)*z**2)-l2*(r1+r2)**3*(r1**4*r2**4*(3*r1**4+7*r1**3*r2+7*r1*r2**3+3*r2**4+8*r1**2*x2**2)+r1**2*r2**6*(-8*r1**2-21*r1*r2-9*r2**2)*y1**2-8*r1**4*r2**4*(r1**2+r1*r2+r2**2)*y1*y2-3*r1**7*r2**2*(3*r1+7*r2)*y2**2+(105*r1*r2**7*y1**2+45*r2**8*y1**2-3*r1**3*r2**5*(7*r2**2+8*y1*(y1-y2))-9*r1**8*(r2**2-5*y2**2)+8*r1**4*r2**4*(-2*r2**2+y1**2-5*y1*y2+y2**2)-21*r1**7*(r2**3-5*r2*y2**2)-8*r1**5*r2**3*(r2**2+3*y2*(-y1+y2))-3*r1**2*r2**6*(3*r2**2-8*y1*(2*y1+y2))-8*r1**6*r2**2*(r2**2-3*y2*(y1+2*y2)))*z**2)-l2**3*(r1**4*r2**7+15*r2**7*y1**2*z**2-3*r1**2*r2**7*(y1**2+z**2)+r1**7*(r2**4+15*y2**2*z**2-3*r2**2*(y2**2+z**2)))))]

/-- expressions.py:158, numerator of `edge_potential_expr` for `derivative == 4`, `d[7]`. -/
def edgeNum4_7 : PExpr :=
  [py| (3*(x1-x2)*z*(l2*(r1+r2)**4*(r1**2*r2**2*(-12*r1*r2**4*y1-9*r2**5*y1-9*r1**5*y2-12*r1**4*r2*y2-4*r1**2*r2**3*y2-4*r1**3*y1*(x2**2+y2**2))+(-4*r1**3*r2**4*y1+20*r1*r2**6*y1+15*r2**7*y1+15*r1**7*y2+20*r1**6*r2*y2-4*r1**4*r2**3*y2+4*r1**2*r2**5*y2)*z**2)+(r1+r2)**6*(r1**2*r2**4*(2*r1**3+4*r1**2*r2+6*r1*r2**2+3*r2**3)*y1+r1**4*r2**2*(3*r1**3+6*r1**2*r2+4*r1*r2**2+2*r2**3)*y2+(-10*r1*r2**6*y1-5*r2**7*y1-5*r1**7*y2-10*r1**6*r2*y2-2*r1**2*r2**5*(4*y1+y2)-2*r1**3*r2**4*(3*y1+2*y2)-2*r1**4*r2**3*(2*y1+3*y2)-2*r1**5*r2**2*(y1+4*y2))*z**2)+l2**3*(-3*r1**2*r2**7*y1+5*r2**7*y1*z**2+r1**7*y2*(-3*r2**2+5*z**2))+l2**2*(24*r1**3*r2**8*y1+r1**4*r2**7*(17*y1+2*y2)-40*r1*r2**8*y1*z**2-15*r2**9*y1*z**2+r1**7*r2**2*(r2**2*(2*y1+17*y2)+(-2*y1-27*y2)*z**2)+r1**2*r2**7*(9*r2**2*y1+(-27*y1-2*y2)*z**2)+r1**9*(9*r2**2*y2-15*y2*z**2)+r1**8*(24*r2**3*y2-40*r2*y2*z**2))))]

/-- expressions.py:159, numerator of `edge_potential_expr` for `derivative == 4`, `d[8]`. -/
def edgeNum4_8 : PExpr :=
  [py| (-3*(x1-x2)*(l2*(r1+r2)**5*(-(r1**4*r2**4*(3*r1**2+r1*r2+3*r2**2))+2*r1**2*r2**2*(9*r1**4+3*r1**3*r2+r1**2*r2**2+3*r1*r2**3+9*r2**4)*z**2+(-15*r1**6-5*r1**5*r2+r1**4*r2**2+3*r1**3*r2**3+r1**2*r2**4-5*r1*r2**5-15*r2**6)*z**4)+(r1+r2)**7*(r1**4*r2**4*(r1**2+r1*r2+r2**2)-6*r1**2*r2**2*(r1**4+r1**3*r2+r1**2*r2**2+r1*r2**3+r2**4)*z**2+5*(r1**6+r1**5*r2+r1**4*r2**2+r1**3*r2**3+r1**2*r2**4+r1*r2**5+r2**6)*z**4)+l2**2*(r1+r2)**3*(r1**4*r2**4*(3*r1**2-r1*r2+3*r2**2)-2*r1**2*r2**2*(9*r1**4-3*r1**3*r2+r1**2*r2**2-3*r1*r2**3+9*r2**4)*z**2+(15*r1**6-5*r1**5*r2-r1**4*r2**2+3*r1**3*r2**3-r1**2*r2**4-5*r1*r2**5+15*r2**6)*z**4)-l2**3*(r1**4*r2**4*(r1**3+r2**3)-6*r1**2*r2**2*(r1**5+r2**5)*z**2+5*(r1**7+r2**7)*z**4)))]

/-- expressions.py:151-159, all numerators for `derivative == 4`. -/
def edgeNum4 : List PExpr :=
  [edgeNum4_0, edgeNum4_1, edgeNum4_2, edgeNum4_3, edgeNum4_4, edgeNum4_5, edgeNum4_6, edgeNum4_7, edgeNum4_8]

/-- expressions.py:162, numerator of `edge_potential_expr` for `derivative == 5`, `d[0]`. -/
def edgeNum5_0 : PExpr :=
  [py| ((y1-y2)*z*(l2**4*(12*r1**4*r2**9+105*r2**9*y1**2*(y1**2+z**2)-15*r1**2*r2**9*(7*y1**2+z**2)+r1**9*(12*r2**4+105*y2**2*(y2**2+z**2)-15*r2**2*(7*y2**2+z**2)))+l2**3*(-4*r1**8*r2**5*(19*r2**2-14*x2**2-29*y2**2-14*z**2)-420*r2**11*y1**2*(y1**2+z**2)+2*r1**3*r2**10*(8*x1**2+581*y1**2+83*z**2)-4*r1**5*r2**6*(34*r2**4+15*x2**2*y1**2+y2*(20*x1**2*y1+20*y1**3+9*x1**2*y2+24*y1**2*y2)+(15*y1**2+20*y1*y2+9*y2**2)*z**2+r2**2*(-14*x1**2-29*y1**2-14*z**2))-6*r1*r2**10*y1**2*(16*x1**2+191*(y1**2+z**2))+r1**11*(-48*r2**4-420*y2**2*(y2**2+z**2)+60*r2**2*(7*y2**2+z**2))-2*r1**7*r2**4*(38*r2**4+r2**2*(-5*x1**2-10*x2**2-5*y1**2-120*y1*y2-28*y2**2-15*z**2)+5*y2*(16*x2**2*y1+y2*(3*(x1**2+y1**2)+16*y1*y2)+(16*y1+3*y2)*z**2))-2*r1**4*r2**7*(24*r2**4+r2**2*(-31*x1**2+6*x1*x2-526*y1**2-24*y1*y2-76*z**2)+5*y1*(3*x2**2*y1+y2*(16*(x1**2+y1**2)+3*y1*y2)+(3*y1+16*y2)*z**2))-2*r1**6*r2**5*(70*r2**4+r2**2*(-10*x1**2-5*x2**2-28*y1**2-120*y1*y2-5*y2**2-15*z**2)+2*(x2**2*y1*(9*y1+20*y2)+y2**2*(15*x1**2+24*y1**2+20*y1*y2)+(9*y1**2+20*y1*y2+15*y2**2)*z**2))+30*r1**2*r2**9*(2*r2**2*(7*y1**2+z**2)+y1*(-13*x1**2*y1+2*x1*x2*y1-2*(16*y1+y2)*(y1**2+z**2)))-2*r1**10*r2*(68*r2**4+r2**2*(-8*x2**2-581*y2**2-83*z**2)+3*y2**2*(16*x2**2+191*(y2**2+z**2)))-2*r1**9*r2**2*(70*r2**4+r2**2*(6*x1*x2-31*x2**2-24*y1*y2-526*y2**2-76*z**2)+15*y2*(-2*x1*x2*y2+13*x2**2*y2+2*(y1+16*y2)*(y2**2+z**2))))+(r1+r2)**5*(105*r2**12*y1**2*(y1**2+z**2)+r1**4*r2**8*(12*r2**4-12*y1*(16*x1**2*(y1+y2)+8*x1*x2*(6*y1+y2)+y1*(x2**2-16*y1**2-32*y1*y2-3*y2**2))+12*(17*y1**2+32*y1*y2+2*y2**2)*z**2+r2**2*(34*x1**2+12*x1*x2-803*y1**2-48*y1*y2-119*z**2))+2*r1**8*r2**4*(34*r2**4-48*x2*(x1+2*x2)*y1*y2-6*(x1**2+48*x1*x2+16*x2**2-3*y1**2)*y2**2+192*y1*y2**3+96*y2**4+6*(2*y1**2+32*y1*y2+17*y2**2)*z**2+r2**2*(2*x1**2+64*x1*x2+23*x2**2-10*y1**2-152*y1*y2-130*y2**2-31*z**2))+2*r1**6*r2**6*(45*r2**4-3*x1**2*y2*(8*y1+17*y2)-48*x1*x2*(y1**2+9*y1*y2+y2**2)+3*y1*(-17*x2**2*y1-8*x2**2*y2+8*y1**2*y2+38*y1*y2**2+8*y2**3)+3*(19*y1**2+16*y1*y2+19*y2**2)*z**2+r2**2*(23*x1**2+64*x1*x2+2*x2**2-130*y1**2-152*y1*y2-10*y2**2-31*z**2))+3*r1*r2**11*y1**2*(-16*x1**2+159*(y1**2+z**2))+r1**12*(12*r2**4+105*y2**2*(y2**2+z**2)-15*r2**2*(7*y2**2+z**2))+2*r1**7*r2**5*(42*r2**4+r2**2*(10*(x1**2+8*x1*x2+x2**2)-35*y1**2-160*y1*y2-35*y2**2-20*z**2)+15*(-16*x1*x2*y2*(y1+y2)-x2**2*y1*(y1+8*y2)+y2**2*(-2*x1**2+5*y1**2+8*y1*y2)+(3*y1**2+8*y1*y2+2*y2**2)*z**2))+r1**5*r2**7*(52*r2**4+r2**2*(56*x1**2+60*x1*x2-649*y1**2-192*y1*y2-109*z**2)+30*(-16*x1*x2*y1*(y1+y2)-x1**2*y2*(8*y1+y2)+y1**2*(-2*x2**2+8*y1*y2+5*y2**2)+(2*y1**2+8*y1*y2+3*y2**2)*z**2))-15*r1**2*r2**10*(r2**2*(7*y1**2+z**2)+y1*(14*x1**2*y1+4*x1*x2*y1-(55*y1+4*y2)*(y1**2+z**2)))+r1**3*r2**9*(r2**2*(8*x1**2-469*y1**2-67*z**2)+3*y1*(-100*x1*x2*y1+x1**2*(-110*y1-16*y2)+(215*y1+84*y2)*(y1**2+z**2)))+r1**11*r2*(52*r2**4+r2**2*(8*x2**2-469*y2**2-67*z**2)+3*y2**2*(-16*x2**2+159*(y2**2+z**2)))+r1**10*r2**2*(90*r2**4+r2**2*(12*x1*x2+34*x2**2-48*y1*y2-803*y2**2-119*z**2)+15*y2*(-4*x1*x2*y2-14*x2**2*y2+(4*y1+55*y2)*(y2**2+z**2)))+r1**9*r2**3*(84*r2**4+r2**2*(60*x1*x2+56*x2**2-192*y1*y2-649*y2**2-109*z**2)+3*y2*(x2**2*(-16*y1-110*y2)-100*x1*x2*y2+(84*y1+215*y2)*(y2**2+z**2))))+2*l2**2*(r1+r2)*(1260*r1*r2**11*y1**2*(y1**2+z**2)+315*r2**12*y1**2*(y1**2+z**2)+r1**4*r2**8*(36*r2**4+3*y1*(-16*x1*x2*y2+x1**2*(80*y1+120*y2)+y1*(5*x2**2+80*y1**2+120*y1*y2+13*y2**2))+3*(89*y1**2+120*y1*y2+4*y2**2)*z**2+r2**2*(-25*x1**2+18*x1*x2-1882*y1**2-72*y1*y2-274*z**2))+r1**5*r2**7*(144*r2**4+105*x2**2*y1**2+48*x1*x2*y1*y2+3*y2*(20*x1**2*(4*y1+y2)+y1**2*(80*y1+47*y2))+3*(31*y1**2+80*y1*y2+16*y2**2)*z**2+r2**2*(-75*x1**2+42*x1*x2-1293*y1**2-248*y1*y2-201*z**2))+r1**8*r2**4*(144*r2**4+3*y2*(-16*x1*x2*y1+5*x1**2*y2+x2**2*(120*y1+80*y2)+y2*(13*y1**2+120*y1*y2+80*y2**2))+3*(4*y1**2+120*y1*y2+89*y2**2)*z**2+r2**2*(-5*x1**2+16*x1*x2-80*x2**2-17*y1**2-424*y1*y2-422*y2**2-93*z**2))+r1**6*r2**6*(228*r2**4-48*x1*x2*y1*y2+10*x2**2*y1*(9*y1+8*y2)+2*y2*(40*x1**2*y1+40*y1**3+45*x1**2*y2+102*y1**2*y2+40*y1*y2**2)+2*(51*y1**2+80*y1*y2+51*y2**2)*z**2+r2**2*(-80*x1**2+16*x1*x2-5*x2**2-422*y1**2-424*y1*y2-17*y2**2-93*z**2))+r1**7*r2**5*(192*r2**4+48*x1*x2*y1*y2+60*x2**2*y1*(y1+4*y2)+3*y2**2*(35*x1**2+47*y1**2+80*y1*y2)+3*(16*y1**2+80*y1*y2+31*y2**2)*z**2+r2**2*(-35*x1**2-16*x1*x2-35*x2**2-83*y1**2-496*y1*y2-83*y2**2-62*z**2))+r1**12*(36*r2**4+315*y2**2*(y2**2+z**2)-45*r2**2*(7*y2**2+z**2))+r1**11*(144*r2**5+1260*r2*y2**2*(y2**2+z**2)-180*r2**3*(7*y2**2+z**2))+15*r1**2*r2**10*(-3*r2**2*(7*y1**2+z**2)+y1*(11*x1**2*y1-6*x1*x2*y1+2*(61*y1+3*y2)*(y1**2+z**2)))+5*r1**3*r2**9*(-36*r2**2*(7*y1**2+z**2)+y1*(-42*x1*x2*y1+x1**2*(93*y1+16*y2)+(225*y1+58*y2)*(y1**2+z**2)))+r1**10*r2**2*(228*r2**4+r2**2*(18*x1*x2-25*x2**2-72*y1*y2-1882*y2**2-274*z**2)+15*y2*(-6*x1*x2*y2+11*x2**2*y2+2*(3*y1+61*y2)*(y2**2+z**2)))+r1**9*r2**3*(192*r2**4+r2**2*(42*x1*x2-75*x2**2-248*y1*y2-1293*y2**2-201*z**2)+5*y2*(-42*x1*x2*y2+x2**2*(16*y1+93*y2)+(58*y1+225*y2)*(y2**2+z**2))))-2*l2*(r1+r2)**3*(210*r2**12*y1**2*(y1**2+z**2)+r1**4*r2**8*(24*r2**4+3*y1*(-32*x1*x2*(3*y1+y2)+x1**2*(80*y1+48*y2)+y1*(-x2**2+80*y1**2+144*y1*y2+15*y2**2))+3*(87*y1**2+144*y1*y2+8*y2**2)*z**2+r2**2*(19*x1**2+18*x1*x2-1421*y1**2-72*y1*y2-209*z**2))+r1**8*r2**4*(116*r2**4-48*(2*x1-3*x2)*x2*y1*y2-3*(x1**2+96*x1*x2-80*x2**2-15*y1**2)*y2**2+432*y1*y2**3+240*y2**4+3*(8*y1**2+144*y1*y2+87*y2**2)*z**2+r2**2*(x1**2+80*x1*x2-26*x2**2-23*y1**2-424*y1*y2-386*y2**2-89*z**2))+r1**7*r2**5*(148*r2**4+48*x1*x2*y2*(-4*y1+3*y2)+6*x2**2*y1*(5*y1+68*y2)+3*y2**2*(13*x1**2+55*y1**2+88*y1*y2)+3*(26*y1**2+88*y1*y2+29*y2**2)*z**2+r2**2*(-13*x1**2+64*x1*x2-13*x2**2-91*y1**2-464*y1*y2-91*y2**2-58*z**2))+3*r1*r2**11*y1**2*(-16*x1**2+299*(y1**2+z**2))+r1**12*(24*r2**4+210*y2**2*(y2**2+z**2)-30*r2**2*(7*y2**2+z**2))+r1**5*r2**7*(100*r2**4+48*x1*x2*y1*(3*y1-4*y2)+6*x1**2*y2*(68*y1+5*y2)+3*y1**2*(13*x2**2+88*y1*y2+55*y2**2)+3*(29*y1**2+88*y1*y2+26*y2**2)*z**2-r2**2*(x1**2-66*x1*x2+1060*y1**2+264*y1*y2+172*z**2))+r1**6*r2**6*(166*r2**4+r2**2*(-26*x1**2+80*x1*x2+x2**2-386*y1**2-424*y1*y2-23*y2**2-89*z**2)+24*(x2**2*y1*(8*y1+y2)+y1*y2*(3*y1+y2)*(y1+3*y2)+x1**2*y2*(y1+8*y2)-2*x1*x2*(y1**2-6*y1*y2+y2**2)+(5*y1**2+6*y1*y2+5*y2**2)*z**2))+3*r1**2*r2**10*(-10*r2**2*(7*y1**2+z**2)+y1*(-37*x1**2*y1-30*x1*x2*y1+(473*y1+30*y2)*(y1**2+z**2)))+r1**3*r2**9*(r2**2*(8*x1**2-889*y1**2-127*z**2)+3*y1*(19*x1**2*y1-110*x1*x2*y1+2*(162*y1+55*y2)*(y1**2+z**2)))+r1**11*r2*(100*r2**4+r2**2*(8*x2**2-889*y2**2-127*z**2)+3*y2**2*(-16*x2**2+299*(y2**2+z**2)))+r1**9*r2**3*(148*r2**4+r2**2*(66*x1*x2-x2**2-264*y1*y2-1060*y2**2-172*z**2)+3*y2*(-110*x1*x2*y2+19*x2**2*y2+2*(55*y1+162*y2)*(y2**2+z**2)))+r1**10*r2**2*(166*r2**4+r2**2*(18*x1*x2+19*x2**2-72*y1*y2-1421*y2**2-209*z**2)+3*y2*(-30*x1*x2*y2-37*x2**2*y2+(30*y1+473*y2)*(y2**2+z**2))))))]

/-- expressions.py:163, numerator of `edge_potential_expr` for `derivative == 5`, `d[1]`. -/
def edgeNum5_1 : PExpr :=
  [py| ((y1-y2)*(l2**4*(12*r1**4*r2**9*y1-15*r1**2*r2**9*y1**3-105*r2**9*x1**2*y1*z**2-3*r1**9*y2*(-4*r2**4-35*z**2*(y2**2+z**2)+5*r2**2*(y2**2+7*z**2)))+l2**3*(-420*r2**11*y1*z**2*(y1**2+z**2)+2*r1**3*r2**10*y1*(8*x1**2+83*y1**2+581*z**2)-4*r1**8*r2**5*(r2**2*(4*y1+15*y2)-2*(2*y1+5*y2)*(x2**2+y2**2)+(-4*y1-25*y2)*z**2)+r1**11*(-48*r2**4*y2+60*r2**2*y2**3+420*x2**2*y2*z**2)-2*r1**10*r2*y2*(r2**2*(68*r2**2-8*x2**2-83*y2**2)+(-581*r2**2+48*x2**2+573*y2**2)*z**2+573*z**4)+4*r1**5*r2**6*(-2*r2**2*(17*r2**2*y1-(x1**2+y1**2)*(5*y1+2*y2))+(x1**2*(-10*y1-19*y2)+r2**2*(25*y1+4*y2)+y1*(-15*x2**2-10*y1**2-19*y1*y2-15*y2**2))*z**2+(-25*y1-19*y2)*z**4)+30*r1**2*r2**9*(2*r2**2*y1**3-y1*(-14*r2**2+x1*(13*x1-2*x2)+y1*(33*y1+y2))*z**2-(33*y1+y2)*z**4)+2*r1**4*r2**7*(r2**2*y1*(-24*r2**2+31*x1**2-6*x1*x2+73*y1**2+3*y1*y2)+5*(-8*x1**2*(y1+y2)+r2**2*(107*y1+3*y2)+y1*(-3*x2**2-8*y1**2-8*y1*y2-3*y2**2))*z**2-5*(11*y1+8*y2)*z**4)+2*r1**7*r2**4*(r2**2*(10*x2**2*y1+r2**2*(-30*y1-8*y2)+5*y2*(x1**2+y1**2+2*y1*y2))+(-15*(x1**2+y1**2)*y2-40*y1*y2**2-40*y2**3-40*x2**2*(y1+y2)+r2**2*(70*y1+83*y2))*z**2-5*(8*y1+11*y2)*z**4)+2*r1**6*r2**5*(r2**2*(10*x1**2*y2-2*r2**2*(34*y1+y2)+5*y1*(x2**2+2*y1*y2+y2**2))+(x2**2*(-38*y1-20*y2)-30*(x1**2+y1**2)*y2-38*y1*y2**2-20*y2**3+r2**2*(83*y1+70*y2))*z**2-2*(19*y1+25*y2)*z**4)-6*r1*r2**10*y1*z**2*(16*x1**2+191*(y1**2+z**2))+2*r1**9*r2**2*(-2*r2**4*(y1+34*y2)-15*y2*(x2*(-2*x1+13*x2)+y2*(y1+33*y2))*z**2-15*(y1+33*y2)*z**4+r2**2*(-6*x1*x2*y2+31*x2**2*y2+3*y1*y2**2+73*y2**3+15*y1*z**2+535*y2*z**2)))-2*l2*(r1+r2)**4*(210*r2**11*y1*z**2*(y1**2+z**2)+r1**11*(24*r2**4*y2-30*r2**2*y2**3-210*x2**2*y2*z**2)+r1**10*r2*y2*(r2**2*(76*r2**2+8*x2**2-97*y2**2)+(-679*r2**2-48*x2**2+687*y2**2)*z**2+687*z**4)+2*r1**5*r2**6*(2*r2**2*y1*(19*r2**2-3*x1**2+12*x1*x2-9*y1**2-6*y1*y2)-3*(x1**2*(-2*y1-27*y2)+8*x1*x2*(-3*y1+y2)+r2**2*(65*y1+20*y2)+y1*(-7*x2**2-6*y1**2-15*y1*y2-11*y2**2))*z**2+3*(17*y1+15*y2)*z**4)+3*r1**2*r2**9*(-10*r2**2*y1**3+y1*(-70*r2**2-21*x1**2-30*x1*x2+259*y1**2+15*y1*y2)*z**2+(259*y1+15*y2)*z**4)+r1**6*r2**5*(r2**2*(-14*x1**2*y2+16*x1*x2*(y1+y2)+6*r2**2*(14*y1+y2)+y1*(x2**2-22*y1*y2-7*y2**2))+(162*x2**2*y1+r2**2*(-169*y1-154*y2)-48*x1*x2*(y1-3*y2)+42*x1**2*y2+12*x2**2*y2+66*y1**2*y2+90*y1*y2**2+36*y2**3)*z**2+6*(15*y1+17*y2)*z**4)+r1**7*r2**4*(r2**2*(x1**2*y2+16*x1*x2*(y1+y2)+r2**2*(42*y1+16*y2)+y1*(-14*x2**2-7*y1*y2-22*y2**2))+(-24*(2*x1-3*x2)*x2*y1+r2**2*(-154*y1-169*y2)-3*(x1**2+32*x1*x2-64*x2**2-7*y1**2)*y2+120*y1*y2**2+96*y2**3)*z**2+3*(40*y1+39*y2)*z**4)+r1**4*r2**7*(r2**2*y1*(24*r2**2+11*x1**2+18*x1*x2-103*y1**2-9*y1*y2)+(r2**2*(-769*y1-45*y2)-48*x1*x2*(2*y1+y2)+x1**2*(192*y1+72*y2)+3*y1*(-x2**2+32*y1**2+40*y1*y2+7*y2**2))*z**2+3*(39*y1+40*y2)*z**4)+r1**3*r2**8*(120*y1*(x1*(x1-2*x2)+y1*(3*y1+y2))*z**2+120*(3*y1+y2)*z**4+r2**2*y1*(8*x1**2-97*y1**2-679*z**2))+3*r1*r2**10*y1*z**2*(-16*x1**2+229*(y1**2+z**2))+r1**9*r2**2*(6*r2**4*(y1+14*y2)+3*y2*(-30*x1*x2-21*x2**2+15*y1*y2+259*y2**2)*z**2+3*(15*y1+259*y2)*z**4+r2**2*(y2*(18*x1*x2+11*x2**2-9*y1*y2-103*y2**2)+(-45*y1-769*y2)*z**2))+2*r1**8*r2**3*(r2**4*(8*y1+21*y2)+60*y2*(-2*x1*x2+x2**2+y2*(y1+3*y2))*z**2+60*(y1+3*y2)*z**4+r2**2*(24*x1*x2*y2-6*y2*(x2**2+2*y1*y2+3*y2**2)-15*(4*y1+13*y2)*z**2)))+(r1+r2)**6*(105*r2**11*y1*z**2*(y1**2+z**2)+r1**11*(12*r2**4*y2-15*r2**2*y2**3-105*x2**2*y2*z**2)+4*r1**10*r2*y2*(r2**2*(10*r2**2+2*x2**2-13*y2**2)+(-91*r2**2-12*x2**2+93*y2**2)*z**2+93*z**4)+2*r1**6*r2**5*(r2**2*((23*r2**2+2*x2*(16*x1+x2))*y1+2*(r2**2+4*x1*(x1+x2)-4*y1**2)*y2-2*y1*y2**2)+(-3*x2*(32*x1+13*x2)*y1+r2**2*(-59*y1-56*y2)-12*(2*x1**2+14*x1*x2+x2**2-2*y1**2)*y2+45*y1*y2**2+12*y2**3)*z**2+9*(5*y1+4*y2)*z**4)+2*r1**5*r2**6*(r2**2*(20*r2**2*y1+24*x1*x2*y1+3*x1**2*(4*y1+y2)-3*y1**2*(4*y1+3*y2))-3*(-4*y1*(-11*r2**2-x1**2-14*x1*x2-2*x2**2+y1**2)+(15*r2**2+13*x1**2+32*x1*x2-15*y1**2)*y2-8*y1*y2**2)*z**2+9*(4*y1+5*y2)*z**4)+2*r1**7*r2**4*(r2**2*(8*x2*(x1+x2)*y1+2*(x1**2+16*x1*x2-y1**2)*y2-8*y1*y2**2+r2**2*(12*y1+5*y2))+(-12*x2*(2*x1+3*x2)*y1+r2**2*(-56*y1-59*y2)-6*(x1**2+32*x1*x2+8*x2**2-y1**2)*y2+60*y1*y2**2+48*y2**3)*z**2+6*(10*y1+9*y2)*z**4)+r1**4*r2**7*(r2**2*y1*(12*r2**2+26*x1**2+12*x1*x2-61*y1**2-6*y1*y2)+(x1**2*(-96*y1-72*y2)+r2**2*(-457*y1-30*y2)-48*x1*x2*(8*y1+y2)+12*y1*(-x2**2+8*y1**2+10*y1*y2+y2**2))*z**2+12*(9*y1+10*y2)*z**4)+3*r1**2*r2**9*(-5*r2**2*y1**3+y1*(-35*r2**2-54*x1**2-20*x1*x2+161*y1**2+10*y1*y2)*z**2+(161*y1+10*y2)*z**4)+12*r1*r2**10*y1*z**2*(-4*x1**2+31*(y1**2+z**2))+r1**9*r2**2*(r2**4*(4*y1+46*y2)+3*y2*(-20*x1*x2-54*x2**2+10*y1*y2+161*y2**2)*z**2+3*(10*y1+161*y2)*z**4+r2**2*(y2*(12*x1*x2+26*x2**2-6*y1*y2-61*y2**2)+(-30*y1-457*y2)*z**2))+4*r1**3*r2**8*(r2**2*y1*(2*x1**2-13*y1**2-91*z**2)+6*z**2*(-10*x1*x2*y1-x1**2*(8*y1+y2)+4*(3*y1+y2)*(y1**2+z**2)))+2*r1**8*r2**3*(r2**4*(5*y1+12*y2)+3*r2**2*(8*x1*x2*y2-3*y1*y2**2-4*y2**3+x2**2*(y1+4*y2)-15*y1*z**2-44*y2*z**2)+12*z**2*(-10*x1*x2*y2-x2**2*(y1+8*y2)+4*(y1+3*y2)*(y2**2+z**2))))+2*l2**2*(r1+r2)**2*(945*r1*r2**10*y1*z**2*(y1**2+z**2)+315*r2**11*y1*z**2*(y1**2+z**2)+r1**11*(36*r2**4*y2-45*r2**2*y2**3-315*x2**2*y2*z**2)+r1**10*(108*r2**5*y2-135*r2**3*y2**3-945*r2*x2**2*y2*z**2)+15*r1**2*r2**9*(-3*r2**2*y1**3+y1*(-21*r2**2+11*x1**2-6*x1*x2+62*y1**2+3*y1*y2)*z**2+(62*y1+3*y2)*z**4)+2*r1**5*r2**6*(r2**2*(54*r2**2*y1+12*x1*x2*y1+y1**2*(-20*y1-11*y2)-5*x1**2*(4*y1+y2))+(r2**2*(-211*y1-55*y2)+20*x1**2*(y1+y2)+x1*(-36*x2*y1+24*x2*y2)+y1*(45*x2**2+20*y1**2+38*y1*y2+33*y2**2))*z**2+(53*y1+38*y2)*z**4)+r1**6*r2**5*(r2**2*(-30*x1**2*y2+8*x1*x2*(-2*y1+y2)+6*r2**2*(19*y1+y2)+y1*(-5*x2**2-22*y1*y2-9*y2**2))+(48*x1*x2*y1+40*x2**2*y1+r2**2*(-177*y1-154*y2)+90*x1**2*y2-72*x1*x2*y2+40*x2**2*y2+66*y1**2*y2+76*y1*y2**2+40*y2**3)*z**2+2*(38*y1+53*y2)*z**4)+r1**4*r2**7*(r2**2*y1*(36*r2**2-25*x1**2+18*x1*x2-130*y1**2-9*y1*y2)+(y1*(-964*r2**2+80*x1**2+96*x1*x2+15*x2**2+80*y1**2)+(-45*r2**2+140*x1**2-24*x1*x2+92*y1**2)*y2+27*y1*y2**2)*z**2+(107*y1+92*y2)*z**4)+r1**7*r2**4*(r2**2*(8*x1*x2*(y1-2*y2)-5*x1**2*y2+18*r2**2*(3*y1+y2)+y1*(-30*x2**2-9*y1*y2-22*y2**2))+(-4*(6*x1-35*x2)*x2*y1+r2**2*(-154*y1-177*y2)+(15*x1**2+96*x1*x2+80*x2**2+27*y1**2)*y2+92*y1*y2**2+80*y2**3)*z**2+(92*y1+107*y2)*z**4)+r1**9*r2**2*(6*r2**4*(y1+19*y2)+15*y2*(-6*x1*x2+11*x2**2+3*y1*y2+62*y2**2)*z**2+15*(3*y1+62*y2)*z**4+r2**2*(y2*(18*x1*x2-25*x2**2-9*y1*y2-130*y2**2)+(-45*y1-964*y2)*z**2))+5*r1**3*r2**8*(-27*r2**2*(y1**3+7*y1*z**2)+4*z**2*(-6*x1*x2*y1+x1**2*(17*y1+2*y2)+(17*y1+5*y2)*(y1**2+z**2)))+2*r1**8*r2**3*(9*r2**4*(y1+3*y2)+r2**2*(12*x1*x2*y2-11*y1*y2**2-20*y2**3-5*x2**2*(y1+4*y2)-55*y1*z**2-211*y2*z**2)+10*z**2*(-6*x1*x2*y2+x2**2*(2*y1+17*y2)+(5*y1+17*y2)*(y2**2+z**2))))))]

/-- expressions.py:164, numerator of `edge_potential_expr` for `derivative == 5`, `d[2]`. -/
def edgeNum5_2 : PExpr :=
  [py| ((y1-y2)*z*(l2**4*(36*r1**4*r2**9+105*r2**9*z**2*(y1**2+z**2)-45*r1**2*r2**9*(y1**2+3*z**2)+r1**9*(36*r2**4+105*z**2*(y2**2+z**2)-45*r2**2*(y2**2+3*z**2)))-2*l2**3*(r1+r2)*(210*r2**10*z**2*(y1**2+z**2)+r1**8*(78*r2**6-30*r2**2*x1*x2*z**2+r2**4*(18*x1*x2-69*(x2**2+y2**2)-78*z**2))+r1**5*(132*r2**9+30*r2**5*x1*x2*z**2+r2**7*(-15*x1**2-18*x1*x2-15*y1**2-58*z**2))+r1**7*(36*r2**7+30*r2**3*x1*x2*z**2+r2**5*(-18*x1*x2-15*(x2**2+y2**2)-21*z**2))+3*r1*r2**9*z**2*(16*x1**2+121*(y1**2+z**2))+r1**10*(72*r2**4+210*z**2*(y2**2+z**2)-90*r2**2*(y2**2+3*z**2))+r1**4*r2**6*(72*r2**4+r2**2*(-69*x1**2+18*x1*x2-69*y1**2-225*z**2)+z**2*(43*x1**2-30*x1*x2+15*x2**2+43*y1**2+15*y2**2+58*z**2))+r1**6*r2**4*(78*r2**4+r2**2*(-15*x1**2+18*x1*x2-15*(x2**2+y1**2+y2**2)-110*z**2)+z**2*(15*x1**2-30*x1*x2+43*x2**2+15*y1**2+43*y2**2+58*z**2))-3*r1**2*r2**8*(30*r2**2*(y1**2+3*z**2)+z**2*(-49*x1**2+10*x1*x2-49*(y1**2+z**2)))+r1**3*r2**7*(r2**2*(-24*x1**2-159*y1**2-477*z**2)+z**2*(37*x1**2+30*x1*x2+37*(y1**2+z**2)))+3*r1**9*r2*(44*r2**4+r2**2*(-8*x2**2-53*y2**2-159*z**2)+z**2*(16*x2**2+121*(y2**2+z**2))))-6*l2*(r1+r2)**5*(70*r2**10*z**2*(y1**2+z**2)+r1**6*r2**4*(r2**2*(38*r2**2+(x1+x2)**2-7*(y1**2+y2**2))-(62*r2**2+x1**2-2*x1*x2-43*x2**2-7*y1**2-27*y2**2)*z**2+34*z**4)+r1**4*r2**6*(3*r2**2*(8*r2**2+x1**2+6*x1*x2-15*y1**2)+(-146*r2**2+43*x1**2+2*x1*x2+27*y1**2+8*y2**2)*z**2+35*z**4)+r1**5*(52*r2**9+30*r2**5*x1*x2*z**2+r2**7*(-15*(x1**2-2*x1*x2+y1**2)-50*z**2))+r1**7*(20*r2**7-50*r2**3*x1*x2*z**2+r2**5*(30*x1*x2-15*(x2**2+y2**2)-5*z**2))+r1*r2**9*z**2*(-16*x1**2+159*(y1**2+z**2))+r1**10*(24*r2**4+70*z**2*(y2**2+z**2)-30*r2**2*(y2**2+3*z**2))-5*r1**2*r2**8*(6*r2**2*(y1**2+3*z**2)+z**2*(x1**2+6*x1*x2-23*(y1**2+z**2)))+r1**3*r2**7*(r2**2*(8*x1**2-67*y1**2-201*z**2)+5*z**2*(9*x1**2-10*x1*x2+9*(y1**2+z**2)))+r1**8*r2**2*(38*r2**4+r2**2*(3*x2*(6*x1+x2)-45*y2**2-145*z**2)-5*z**2*(6*x1*x2+x2**2-23*(y2**2+z**2)))+r1**9*r2*(52*r2**4+r2**2*(8*x2**2-67*y2**2-201*z**2)+z**2*(-16*x2**2+159*(y2**2+z**2))))+2*l2**2*(r1+r2)**3*(630*r1*r2**9*z**2*(y1**2+z**2)+315*r2**10*z**2*(y1**2+z**2)+r1**10*(108*r2**4+315*z**2*(y2**2+z**2)-135*r2**2*(y2**2+3*z**2))+r1**9*(216*r2**5+630*r2*z**2*(y2**2+z**2)-270*r2**3*(y2**2+3*z**2))+r1**4*r2**6*(108*r2**4+r2**2*(-75*x1**2+54*x1*x2-147*y1**2-477*z**2)+z**2*(5*x1**2+102*x1*x2+15*x2**2+77*y1**2+27*y2**2+104*z**2))+r1**6*r2**4*(144*r2**4+r2**2*(-15*x1**2-42*x1*x2-15*x2**2-27*(y1**2+y2**2)-214*z**2)+z**2*(15*x1**2+102*x1*x2+5*x2**2+27*y1**2+77*y2**2+104*z**2))-15*r1**2*r2**8*(9*r2**2*(y1**2+3*z**2)+z**2*(-11*x1**2+6*x1*x2-23*(y1**2+z**2)))-5*r1**3*r2**7*(54*r2**2*(y1**2+3*z**2)+z**2*(-43*x1**2+6*x1*x2-19*(y1**2+z**2)))+r1**7*r2**3*(72*r2**4+r2**2*(18*x1*x2-75*x2**2-39*y2**2-179*z**2)+5*z**2*(-6*x1*x2+43*x2**2+19*(y2**2+z**2)))+3*r1**8*r2**2*(48*r2**4+r2**2*(18*x1*x2-25*x2**2-49*y2**2-159*z**2)+5*z**2*(-6*x1*x2+11*x2**2+23*(y2**2+z**2)))+r1**5*r2**5*(216*r2**4+r2**2*(-75*x1**2+18*x1*x2-39*y1**2-179*z**2)+3*z**2*(25*x1**2-42*x1*x2+25*x2**2+13*(y1**2+y2**2+2*z**2))))+3*(r1+r2)**7*(35*r2**10*z**2*(y1**2+z**2)+2*r1**7*r2**3*(6*r2**2*x2*(3*x1+2*x2)+(-19*r2**2-30*x1*x2-17*x2**2+23*y2**2)*z**2+23*z**4)+r1**2*r2**8*(-15*r2**2*y1**2+(-45*r2**2-38*x1**2-20*x1*x2+82*y1**2)*z**2+82*z**4)+r1*r2**9*z**2*(-16*x1**2+89*(y1**2+z**2))+r1**10*(12*r2**4+35*z**2*(y2**2+z**2)-15*r2**2*(y2**2+3*z**2))+2*r1**4*r2**6*(6*r2**4+r2**2*(9*x1**2+6*x1*x2-15*y1**2-48*z**2)+z**2*(-11*x1**2-42*x1*x2-2*x2**2+13*y1**2+2*y2**2+15*z**2))+2*r1**6*r2**4*(11*r2**4+2*r2**2*(x1**2+11*x1*x2+x2**2-y1**2-y2**2-10*z**2)+z**2*(-2*x1**2-42*x1*x2-11*x2**2+2*y1**2+13*y2**2+15*z**2))+r1**3*r2**7*(r2**2*(8*x1**2-37*y1**2-111*z**2)+2*z**2*(-17*x1**2-30*x1*x2+23*(y1**2+z**2)))+2*r1**8*r2**2*(11*r2**4+r2**2*(6*x1*x2+9*x2**2-15*y2**2-48*z**2)+z**2*(-10*x1*x2-19*x2**2+41*(y2**2+z**2)))+r1**9*r2*(28*r2**4+r2**2*(8*x2**2-37*y2**2-111*z**2)+z**2*(-16*x2**2+89*(y2**2+z**2)))+2*r1**5*r2**5*(14*r2**4+r2**2*(6*x1*(x1+3*x2)-6*y1**2-25*z**2)+2*z**2*(-3*x1**2-23*x1*x2+3*(-x2**2+y1**2+y2**2+2*z**2))))))]

/-- expressions.py:165, numerator of `edge_potential_expr` for `derivative == 5`, `d[3]`. -/
def edgeNum5_3 : PExpr :=
  [py| (3*(y1-y2)*(l2**4*(15*r1**2*r2**9*x1*y1-35*r2**9*x1*y1**3+r1**9*(15*r2**2*x2*y2-35*x2*y2**3))+l2**3*(-150*r1**3*r2**10*x1*y1+350*r1*r2**10*x1*y1**3+140*r2**11*x1*y1**3-6*r1**4*r2**9*(15*x1*y1+x2*y1+x1*y2)+r1**11*(-60*r2**2*x2*y2+140*x2*y2**3)+r1**10*(-150*r2**3*x2*y2+350*r2*x2*y2**3)+10*r1**2*r2**9*y1*(-6*r2**2*x1+y1*(19*x1*y1+x2*y1+3*x1*y2))-2*r1**9*r2**2*(3*r2**2*(x2*y1+x1*y2+15*x2*y2)-5*y2**2*(3*x2*y1+x1*y2+19*x2*y2)))-2*l2*(r1+r2)**3*(-315*r1*r2**11*x1*y1**3-70*r2**12*x1*y1**3+r1**12*(30*r2**2*x2*y2-70*x2*y2**3)+r1**11*(135*r2**3*x2*y2-315*r2*x2*y2**3)+5*r1**3*r2**9*y1*(27*r2**2*x1+y1*(-61*x1*y1-11*x2*y1-33*x1*y2))+15*r1**2*r2**10*y1*(2*r2**2*x1-y1*(34*x1*y1+x2*y1+3*x1*y2))+3*r1**10*r2**2*(-5*y2**2*(3*x2*y1+x1*y2+34*x2*y2)+r2**2*(3*x2*y1+3*x1*y2+76*x2*y2))+r1**9*r2**3*(-5*y2**2*(33*x2*y1+11*x1*y2+61*x2*y2)+r2**2*(33*x2*y1+33*x1*y2+171*x2*y2))+3*r1**5*r2**7*(r2**2*(57*x1*y1+11*x2*y1+11*x1*y2)+8*y1*(x2*y1*(y1-2*y2)+x1*(3*y1-2*y2)*y2))+8*r1**6*r2**6*(r2**2*(7*x1*y1+5*x2*y1+5*x1*y2+x2*y2)-x1*y2*(3*y1**2-9*y1*y2+y2**2)-x2*y1*(y1**2-9*y1*y2+3*y2**2))+3*r1**4*r2**8*(r2**2*(76*x1*y1+3*x2*y1+3*x1*y2)-8*y1*(x2*y1*(2*y1+y2)+x1*y2*(6*y1+y2)))+8*r1**7*r2**5*(2*r2**2*(x1*y1+2*x2*y1+2*x1*y2+x2*y2)+3*y2*(x1*y2*(-2*y1+y2)+x2*y1*(-2*y1+3*y2)))+8*r1**8*r2**4*(r2**2*(x1*y1+5*x2*y1+5*x1*y2+7*x2*y2)-3*y2*(x1*y2*(y1+2*y2)+x2*y1*(y1+6*y2))))+l2**2*(-1050*r1*r2**12*x1*y1**3-210*r2**13*x1*y1**3+30*r1**5*r2**10*(25*x1*y1+2*x2*y1+2*x1*y2)+2*r1**6*r2**9*(130*x1*y1+29*x2*y1+29*x1*y2+4*x2*y2)+r1**13*(90*r2**2*x2*y2-210*x2*y2**3)+r1**12*(450*r2**3*x2*y2-1050*r2*x2*y2**3)+50*r1**3*r2**10*y1*(9*r2**2*x1+y1*(-31*x1*y1-2*x2*y1-6*x1*y2))+30*r1**2*r2**11*y1*(3*r2**2*x1-y1*(65*x1*y1+x2*y1+3*x1*y2))+10*r1**10*r2**3*(-5*y2**2*(6*x2*y1+2*x1*y2+31*x2*y2)+r2**2*(6*x2*y1+6*x1*y2+75*x2*y2))+6*r1**11*r2**2*(-5*y2**2*(3*x2*y1+x1*y2+65*x2*y2)+r2**2*(3*x2*y1+3*x1*y2+143*x2*y2))+2*r1**9*r2**4*(r2**2*(4*x1*y1+29*x2*y1+29*x1*y2+130*x2*y2)+y2*(x1*(-12*y1-35*y2)*y2+x2*(-12*y1**2-105*y1*y2-220*y2**2)))+2*r1**4*r2**9*(r2**2*(429*x1*y1+9*x2*y1+9*x1*y2)+y1*(x2*y1*(-35*y1-12*y2)+x1*(-220*y1**2-105*y1*y2-12*y2**2))))+(r1+r2)**5*(-175*r1*r2**11*x1*y1**3-35*r2**12*x1*y1**3+r1**12*(15*r2**2*x2*y2-35*x2*y2**3)+r1**11*(75*r2**3*x2*y2-175*r2*x2*y2**3)+5*r1**2*r2**10*y1*(3*r2**2*x1+y1*(-69*x1*y1-2*x2*y1-6*x1*y2))+25*r1**3*r2**9*y1*(3*r2**2*x1+y1*(-13*x1*y1-2*x2*y1-6*x1*y2))+5*r1**9*r2**3*(-5*y2**2*(6*x2*y1+2*x1*y2+13*x2*y2)+r2**2*(6*x2*y1+6*x1*y2+33*x2*y2))+r1**10*r2**2*(-5*y2**2*(6*x2*y1+2*x1*y2+69*x2*y2)+r2**2*(6*x2*y1+6*x1*y2+153*x2*y2))+8*r1**6*r2**6*(r2**2*(13*x1*y1+8*x2*y1+8*x1*y2+x2*y2)+x2*y1*(-2*y1**2-27*y1*y2-6*y2**2)+x1*y2*(-6*y1**2-27*y1*y2-2*y2**2))+40*r1**7*r2**5*(r2**2*(x1*y1+2*x2*y1+2*x1*y2+x2*y2)+y2*(x1*(-3*y1-2*y2)*y2-3*x2*y1*(y1+2*y2)))+5*r1**5*r2**7*(r2**2*(33*x1*y1+6*x2*y1+6*x1*y2)-8*y1*(3*x1*y2*(2*y1+y2)+x2*y1*(2*y1+3*y2)))+8*r1**8*r2**4*(r2**2*(x1*y1+8*x2*y1+8*x1*y2+13*x2*y2)+y2*(-3*x1*y2*(y1+4*y2)+x2*(-3*y1**2-36*y1*y2-16*y2**2)))+r1**4*r2**8*(r2**2*(153*x1*y1+6*x2*y1+6*x1*y2)-8*y1*(3*x2*y1*(4*y1+y2)+x1*(16*y1**2+36*y1*y2+3*y2**2)))))*z)]

/-- expressions.py:166, numerator of `edge_potential_expr` for `derivative == 5`, `d[4]`. -/
def edgeNum5_4 : PExpr :=
  [py| ((-y1+y2)*(3*l2**4*(r1**4*r2**9*x1+35*r2**9*x1*y1**2*z**2-5*r1**2*r2**9*x1*(y1**2+z**2)+r1**9*x2*(r2**4+35*y2**2*z**2-5*r2**2*(y2**2+z**2)))-2*l2**3*(15*r1**5*r2**10*x1+r1**6*r2**9*(10*x1+x2)+525*r1*r2**10*x1*y1**2*z**2+210*r2**11*x1*y1**2*z**2-75*r1**3*r2**10*x1*(y1**2+z**2)+15*r1**2*r2**9*(y1*(20*x1*y1+x2*y1+2*x1*y2)*z**2-2*r2**2*x1*(y1**2+z**2))+3*r1**4*r2**9*(2*r2**2*x1-2*x1*y1*(7*y1+y2)-16*x1*z**2-x2*(y1**2+z**2))+6*r1**11*x2*(r2**4+35*y2**2*z**2-5*r2**2*(y2**2+z**2))+15*r1**10*r2*x2*(r2**4+35*y2**2*z**2-5*r2**2*(y2**2+z**2))+r1**9*r2**2*(r2**4*(x1+10*x2)+15*y2*(2*x2*y1+x1*y2+20*x2*y2)*z**2-3*r2**2*(y2*(2*x2*y1+x1*y2+14*x2*y2)+(x1+16*x2)*z**2)))-2*l2*(r1+r2)**4*(735*r1*r2**10*x1*y1**2*z**2+210*r2**11*x1*y1**2*z**2+8*r1**7*r2**4*(r2**2*(r2**2*(2*x1+x2)-x1*y2*(2*y1+y2)-x2*y1*(y1+2*y2))-3*(r2**2*(x1+x2)-2*x1*y2*(y1+y2)-x2*(y1**2+4*y1*y2-4*y2**2))*z**2)+r1**6*r2**5*(r2**2*(r2**2*(26*x1+3*x2)-8*x1*y2*(2*y1+y2)-8*x2*y1*(y1+2*y2))-24*(r2**2*(x1+x2)+x1*y2*(-2*y1+3*y2)-x2*(y1**2-6*y1*y2+y2**2))*z**2)-15*r1**2*r2**9*(y1*(-56*x1*y1-3*x2*y1-6*x1*y2)*z**2+2*r2**2*x1*(y1**2+z**2))-15*r1**3*r2**8*(-8*y1*(x2*y1+2*x1*(y1+y2))*z**2+7*r2**2*x1*(y1**2+z**2))+6*r1**11*x2*(r2**4+35*y2**2*z**2-5*r2**2*(y2**2+z**2))+21*r1**10*r2*x2*(r2**4+35*y2**2*z**2-5*r2**2*(y2**2+z**2))+3*r1**4*r2**7*(2*r2**4*x1+8*(2*x2*y1*(y1+y2)+x1*(-4*y1**2+4*y1*y2+y2**2))*z**2+r2**2*(y1*(-38*x1*y1-3*x2*y1-6*x1*y2)+(-44*x1-3*x2)*z**2))+3*r1**5*r2**6*(7*r2**4*x1+8*(x2*y1*(-3*y1+2*y2)+x1*(y1**2-6*y1*y2+y2**2))*z**2-8*r2**2*(y1*((x1+x2)*y1+2*x1*y2)+(3*x1+x2)*z**2))+8*r1**8*r2**3*(r2**4*(x1+2*x2)+15*y2*(x1*y2+2*x2*(y1+y2))*z**2-3*r2**2*(y2*(2*x2*y1+(x1+x2)*y2)+(x1+3*x2)*z**2))+r1**9*r2**2*(r2**4*(3*x1+26*x2)+15*y2*(6*x2*y1+3*x1*y2+56*x2*y2)*z**2+r2**2*(x2*(-18*y1*y2-114*y2**2-132*z**2)-9*x1*(y2**2+z**2))))+2*l2**2*(r1+r2)**2*(945*r1*r2**10*x1*y1**2*z**2+315*r2**11*x1*y1**2*z**2+15*r1**3*r2**8*(9*r2**2*x1**3+4*y1*(x2*y1+2*x1*y2)*z**2)+4*r1**7*r2**4*(r2**2*(r2**2*(2*x1+x2)-x2*y1*(y1-4*y2)+2*x1*y2*(-y1+y2))+3*(r2**2*x2+x2*y1*(y1-8*y2)+2*x1*(y1-2*y2)*y2)*z**2)+3*r1**4*r2**7*(r2**2*(3*r2**2*x1+y1*(-35*x1*y1-3*x2*y1-6*x1*y2))+(r2**2*(-41*x1-3*x2)+4*x1*y2*(-8*y1+y2)+8*x2*y1*(-2*y1+y2))*z**2)+r1**6*r2**5*(r2**2*(r2**2*(25*x1+3*x2)+8*x2*y1*(y1-y2)+4*x1*(4*y1-y2)*y2)+12*(r2**2*x1-2*x2*y1*(y1-3*y2)+x1*y2*(-4*y1+3*y2))*z**2)+12*r1**5*r2**6*(-(r2**2*(9*r2**2*x1+x2*y1**2+2*x1*y1*y2))-(r2**2*(2*x1+x2)+2*x1*y2*(-3*y1+y2)+x2*y1*(-3*y1+4*y2))*z**2)+45*r1**2*r2**9*(y1*(17*x1*y1+x2*y1+2*x1*y2)*z**2-r2**2*x1*(y1**2+z**2))+9*r1**11*x2*(r2**4+35*y2**2*z**2-5*r2**2*(y2**2+z**2))+27*r1**10*r2*x2*(r2**4+35*y2**2*z**2-5*r2**2*(y2**2+z**2))+4*r1**8*r2**3*(r2**4*(x1+2*x2)+15*y2*(2*x2*y1+x1*y2)*z**2-3*r2**2*(y2*(2*x2*y1+x1*y2)+(x1+2*x2)*z**2))+r1**9*r2**2*(r2**4*(3*x1+25*x2)+45*y2*(2*x2*y1+x1*y2+17*x2*y2)*z**2+r2**2*(x2*(-18*y1*y2-105*y2**2-123*z**2)-9*x1*(y2**2+z**2))))+(r1+r2)**6*(420*r1*r2**10*x1*y1**2*z**2+105*r2**11*x1*y1**2*z**2+8*r1**7*r2**4*(r2**2*(r2**2*(2*x1+x2)-2*x1*y2*(y1+2*y2)-x2*y1*(y1+8*y2))+3*(r2**2*(-2*x1-3*x2)+x2*y1**2+2*(x1+8*x2)*y1*y2+8*(x1+x2)*y2**2)*z**2)+r1**6*r2**5*(r2**2*(r2**2*(19*x1+2*x2)-16*x2*y1*(2*y1+y2)-8*x1*y2*(8*y1+y2))-24*(r2**2*(3*x1+2*x2)+x1*(-8*y1-7*y2)*y2-2*x2*(2*y1**2+7*y1*y2+y2**2))*z**2)-15*r1**2*r2**9*(y1*(-43*x1*y1-2*x2*y1-4*x1*y2)*z**2+r2**2*x1*(y1**2+z**2))-60*r1**3*r2**8*(-2*y1*(4*x1*y1+x2*y1+2*x1*y2)*z**2+r2**2*x1*(y1**2+z**2))+3*r1**11*x2*(r2**4+35*y2**2*z**2-5*r2**2*(y2**2+z**2))+12*r1**10*r2*x2*(r2**4+35*y2**2*z**2-5*r2**2*(y2**2+z**2))+3*r1**4*r2**7*(r2**4*x1+8*(8*(x1+x2)*y1**2+2*(8*x1+x2)*y1*y2+x1*y2**2)*z**2+r2**2*(y1*(-29*x1*y1-2*x2*y1-4*x1*y2)+(-33*x1-2*x2)*z**2))+12*r1**5*r2**6*(r2**4*x1+2*(x2*y1*(7*y1+8*y2)+2*x1*(y1**2+7*y1*y2+2*y2**2))*z**2-2*r2**2*(y1*(x2*y1+2*x1*(y1+y2))+(4*x1+x2)*z**2))+8*r1**8*r2**3*(r2**4*(x1+2*x2)+15*y2*(2*x2*y1+x1*y2+4*x2*y2)*z**2-3*r2**2*(y2*(x1*y2+2*x2*(y1+y2))+(x1+4*x2)*z**2))+r1**9*r2**2*(r2**4*(2*x1+19*x2)+15*y2*(4*x2*y1+2*x1*y2+43*x2*y2)*z**2+r2**2*(x2*(-12*y1*y2-87*y2**2-99*z**2)-6*x1*(y2**2+z**2))))))]

/-- expressions.py:167, numerator of `edge_potential_expr` for `derivative == 5`, `d[5]`. -/
def edgeNum5_5 : PExpr :=
  [py| (3*(y1-y2)*z*(l2**4*(15*r1**2*r2**9*x1*y1-35*r2**9*x1*y1*z**2+5*r1**9*x2*y2*(3*r2**2-7*z**2))+(r1+r2)**7*(-105*r1*r2**9*x1*y1*z**2-35*r2**10*x1*y1*z**2+5*r1**10*x2*y2*(3*r2**2-7*z**2)+15*r1**9*r2*x2*y2*(3*r2**2-7*z**2)+5*r1**2*r2**8*(3*r2**2*x1*y1-2*(12*x1*y1+x2*y1+x1*y2)*z**2)+5*r1**3*r2**7*(9*r2**2*x1*y1-2*(8*x1*y1+3*x2*y1+3*x1*y2)*z**2)+2*r1**6*r2**4*(r2**2*(4*x1*y1+11*x2*y1+11*x1*y2+4*x2*y2)+(-4*x1*y1-21*x2*y1-21*x1*y2-24*x2*y2)*z**2)+2*r1**5*r2**5*(r2**2*(12*x1*y1+9*x2*y1+9*x1*y2)+(-12*x1*y1-23*x2*y1-23*x1*y2-12*x2*y2)*z**2)+2*r1**4*r2**6*(3*r2**2*(8*x1*y1+x2*y1+x1*y2)+(-24*x1*y1-21*x2*y1-21*x1*y2-4*x2*y2)*z**2)+2*r1**7*r2**3*(r2**2*(9*x2*y1+9*x1*y2+12*x2*y2)-5*(3*x2*y1+3*x1*y2+8*x2*y2)*z**2)+2*r1**8*r2**2*(3*r2**2*(x2*y1+x1*y2+8*x2*y2)-5*(x2*y1+x1*y2+12*x2*y2)*z**2))-2*l2*(r1+r2)**5*(-175*r1*r2**9*x1*y1*z**2-70*r2**10*x1*y1*z**2+10*r1**10*x2*y2*(3*r2**2-7*z**2)+25*r1**9*r2*x2*y2*(3*r2**2-7*z**2)+5*r1**7*r2**3*(x2*y1+x1*y2)*(3*r2**2-5*z**2)+15*r1**5*r2**5*(x2*y1+x1*y2)*(r2**2+z**2)+25*r1**3*r2**7*(3*r2**2*x1*y1-(x2*y1+x1*y2)*z**2)+15*r1**2*r2**8*(2*r2**2*x1*y1-(8*x1*y1+x2*y1+x1*y2)*z**2)+r1**4*r2**6*(r2**2*(48*x1*y1+9*x2*y1+9*x1*y2)+(16*x1*y1+x2*y1+x1*y2-8*x2*y2)*z**2)+3*r1**8*r2**2*(r2**2*(3*x2*y1+3*x1*y2+16*x2*y2)-5*(x2*y1+x1*y2+8*x2*y2)*z**2)+r1**6*r2**4*(r2**2*(8*x1*y1+x2*y1+x1*y2+8*x2*y2)+(-8*x1*y1+x2*y1+x1*y2+16*x2*y2)*z**2))+l2**3*(-150*r1**3*r2**10*x1*y1-6*r1**4*r2**9*(15*x1*y1+x2*y1+x1*y2)+350*r1*r2**10*x1*y1*z**2+140*r2**11*x1*y1*z**2-20*r1**11*x2*y2*(3*r2**2-7*z**2)-50*r1**10*r2*x2*y2*(3*r2**2-7*z**2)+10*r1**2*r2**9*(-6*r2**2*x1*y1+(21*x1*y1+x2*y1+x1*y2)*z**2)-2*r1**9*r2**2*(3*r2**2*(x2*y1+x1*y2+15*x2*y2)-5*(x2*y1+x1*y2+21*x2*y2)*z**2))+2*l2**2*(15*r1**5*r2**10*(25*x1*y1+2*x2*y1+2*x1*y2)+r1**6*r2**9*(130*x1*y1+29*x2*y1+29*x1*y2+4*x2*y2)-525*r1*r2**12*x1*y1*z**2-105*r2**13*x1*y1*z**2+15*r1**13*x2*y2*(3*r2**2-7*z**2)+75*r1**12*r2*x2*y2*(3*r2**2-7*z**2)+25*r1**3*r2**10*(9*r2**2*x1*y1+(-35*x1*y1-2*x2*y1-2*x1*y2)*z**2)+15*r1**2*r2**11*(3*r2**2*x1*y1-(67*x1*y1+x2*y1+x1*y2)*z**2)+r1**9*r2**4*(r2**2*(4*x1*y1+29*x2*y1+29*x1*y2+130*x2*y2)+(-4*x1*y1-43*x2*y1-43*x1*y2-294*x2*y2)*z**2)+r1**4*r2**9*(r2**2*(429*x1*y1+9*x2*y1+9*x1*y2)+(-294*x1*y1-43*x2*y1-43*x1*y2-4*x2*y2)*z**2)+5*r1**10*r2**3*(r2**2*(6*x2*y1+6*x1*y2+75*x2*y2)-5*(2*x2*y1+2*x1*y2+35*x2*y2)*z**2)+3*r1**11*r2**2*(r2**2*(3*x2*y1+3*x1*y2+143*x2*y2)-5*(x2*y1+x1*y2+67*x2*y2)*z**2))))]

/-- expressions.py:168, numerator of `edge_potential_expr` for `derivative == 5`, `d[6]`. -/
def edgeNum5_6 : PExpr :=
  [py| (-3*(y1-y2)*(2*l2**2*(r1+r2)**4*(r1**4*r2**6*(3*r1**3-2*r1**2*r2+9*r1*r2**2+9*r2**3)*x1+r1**6*r2**4*(9*r1**3+9*r1**2*r2-2*r1*r2**2+3*r2**3)*x2-6*r1**2*r2**2*(15*r1*r2**6*x1+15*r2**7*x1+r1**5*r2**2*(3*x1-4*x2)+r1**3*r2**4*(x1-2*x2)+15*r1**7*x2+15*r1**6*r2*x2+r1**4*r2**3*(-2*x1+x2)+r1**2*r2**5*(-4*x1+3*x2))*z**2+(105*r1*r2**8*x1+105*r2**9*x1-3*r1**5*r2**4*(x1-4*x2)+15*r1**7*r2**2*(x1-2*x2)+3*r1**4*r2**5*(4*x1-x2)+105*r1**9*x2+105*r1**8*r2*x2+15*r1**2*r2**7*(-2*x1+x2)-5*r1**6*r2**3*(2*x1+x2)-5*r1**3*r2**6*(x1+2*x2))*z**4)-2*l2*(r1+r2)**6*(r1**4*r2**6*(3*r1+2*r2)*(r1**2+3*r2**2)*x1+r1**6*r2**4*(2*r1+3*r2)*(3*r1**2+r2**2)*x2-6*r1**2*r2**2*(15*r1*r2**6*x1+10*r2**7*x1+10*r1**7*x2+15*r1**6*r2*x2+r1**4*r2**3*(2*x1+x2)+r1**3*r2**4*(x1+2*x2)+r1**2*r2**5*(4*x1+3*x2)+r1**5*r2**2*(3*x1+4*x2))*z**2+(105*r1*r2**8*x1+70*r2**9*x1-5*r1**3*r2**6*(x1-2*x2)+5*r1**6*r2**3*(2*x1-x2)+70*r1**9*x2+105*r1**8*r2*x2+15*r1**2*r2**7*(2*x1+x2)-3*r1**4*r2**5*(4*x1+x2)+15*r1**7*r2**2*(x1+2*x2)-3*r1**5*r2**4*(x1+4*x2))*z**4)+(r1+r2)**8*(r1**4*r2**6*(2*r1**3+4*r1**2*r2+6*r1*r2**2+3*r2**3)*x1+r1**6*r2**4*(3*r1**3+6*r1**2*r2+4*r1*r2**2+2*r2**3)*x2-6*r1**2*r2**2*(10*r1*r2**6*x1+5*r2**7*x1+5*r1**7*x2+10*r1**6*r2*x2+2*r1**2*r2**5*(4*x1+x2)+2*r1**3*r2**4*(3*x1+2*x2)+2*r1**4*r2**3*(2*x1+3*x2)+2*r1**5*r2**2*(x1+4*x2))*z**2+5*(14*r1*r2**8*x1+7*r2**9*x1+7*r1**9*x2+14*r1**8*r2*x2+2*r1**2*r2**7*(6*x1+x2)+2*r1**3*r2**6*(5*x1+2*x2)+2*r1**4*r2**5*(4*x1+3*x2)+2*r1**5*r2**4*(3*x1+4*x2)+2*r1**6*r2**3*(2*x1+5*x2)+2*r1**7*r2**2*(x1+6*x2))*z**4)+l2**4*(3*r1**4*r2**9*x1-30*r1**2*r2**9*x1*z**2+35*r2**9*x1*z**4+r1**9*x2*(3*r2**4-30*r2**2*z**2+35*z**4))-2*l2**3*(15*r1**5*r2**10*x1+r1**6*r2**9*(10*x1+x2)-150*r1**3*r2**10*x1*z**2+175*r1*r2**10*x1*z**4+70*r2**11*x1*z**4+6*r1**4*r2**9*(r2**2*x1-(16*x1+x2)*z**2)+5*r1**2*r2**9*z**2*(-12*r2**2*x1+(22*x1+x2)*z**2)+2*r1**11*x2*(3*r2**4-30*r2**2*z**2+35*z**4)+5*r1**10*r2*x2*(3*r2**4-30*r2**2*z**2+35*z**4)+r1**9*r2**2*(r2**4*(x1+10*x2)-6*r2**2*(x1+16*x2)*z**2+5*(x1+22*x2)*z**4))))]

/-- expressions.py:169, numerator of `edge_potential_expr` for `derivative == 5`, `d[7]`. -/
def edgeNum5_7 : PExpr :=
  [py| (-3*(y1-y2)*(-2*l2**3*(r1**4*r2**6*(r1+r2)**3*(r1**2-3*r1*r2+6*r2**2)*y1+r1**2*r2**9*(-14*r1**2-25*r1*r2-10*r2**2)*y1**3+r1**4*r2**4*(r1**2*(r1+r2)**3*(6*r1**2-3*r1*r2+r2**2)-3*r2**5*y1**2)*y2-3*r1**9*r2**4*y1*y2**2+r1**9*r2**2*(-10*r1**2-25*r1*r2-14*r2**2)*y2**3+(-75*r1**3*r2**10*y1+175*r1*r2**10*y1**3+70*r2**11*y1**3-3*r1**4*r2**9*(16*y1+y2)-5*r1**2*r2**9*y1*(6*r2**2-20*y1**2-3*y1*y2)+r1**11*(-30*r2**2*y2+70*y2**3)+r1**10*(-75*r2**3*y2+175*r2*y2**3)+r1**9*r2**2*(-3*r2**2*(y1+16*y2)+5*y2**2*(3*y1+20*y2)))*z**2)+l2**4*(3*r1**4*r2**9*y1+35*r2**9*y1**3*z**2-5*r1**2*r2**9*y1*(y1**2+3*z**2)+r1**9*y2*(3*r2**4+35*y2**2*z**2-5*r2**2*(y2**2+3*z**2)))+2*l2**2*(r1+r2)**2*(315*r1*r2**10*y1**3*z**2+105*r2**11*y1**3*z**2+4*r1**7*r2**4*(r2**4*(2*y1+y2)+3*y1*(y1-4*y2)*y2*z**2-r2**2*y2*(y1**2-2*y1*y2-3*z**2))-15*r1**2*r2**9*y1*(y1*(-17*y1-3*y2)*z**2+r2**2*(y1**2+3*z**2))-15*r1**3*r2**8*y1*(-4*y1*y2*z**2+3*r2**2*(y1**2+3*z**2))+r1**6*r2**5*(r2**4*(25*y1+3*y2)-12*y1*(2*y1-3*y2)*y2*z**2+4*r2**2*y1*(2*y1*y2-y2**2+3*z**2))+r1**4*r2**7*(9*r2**4*y1+12*y1*y2*(-4*y1+y2)*z**2+r2**2*(-35*y1**3-9*y1**2*y2-123*y1*z**2-9*y2*z**2))+r1**11*(9*r2**4*y2+105*y2**3*z**2-15*r2**2*(y2**3+3*y2*z**2))+r1**10*(27*r2**5*y2+315*r2*y2**3*z**2-45*r2**3*(y2**3+3*y2*z**2))+3*r1**5*r2**6*(9*r2**4*y1+4*y1*(3*y1-2*y2)*y2*z**2-4*r2**2*(y1**2*y2+(2*y1+y2)*z**2))+4*r1**8*(r2**7*(y1+2*y2)+15*r2**3*y1*y2**2*z**2-3*r2**5*(y1*y2**2+(y1+2*y2)*z**2))+r1**9*r2**2*(r2**4*(3*y1+25*y2)+15*y2**2*(3*y1+17*y2)*z**2+r2**2*(-35*y2**3-123*y2*z**2-9*y1*(y2**2+z**2))))+(r1+r2)**6*(140*r1*r2**10*y1**3*z**2+35*r2**11*y1**3*z**2+r1**4*r2**7*(r2**2*y1*(3*r2**2-29*y1**2-6*y1*y2)+(-99*r2**2*y1+64*y1**3-6*r2**2*y2+192*y1**2*y2+24*y1*y2**2)*z**2)+4*r1**5*r2**6*(r2**2*y1*(3*r2**2-4*y1**2-6*y1*y2)-2*(3*r2**2*(4*y1+y2)+y1*(-2*y1**2-21*y1*y2-12*y2**2))*z**2)-5*r1**2*r2**9*y1*(y1*(-43*y1-6*y2)*z**2+r2**2*(y1**2+3*z**2))-20*r1**3*r2**8*y1*(-2*y1*(4*y1+3*y2)*z**2+r2**2*(y1**2+3*z**2))+r1**11*y2*(3*r2**4+35*y2**2*z**2-5*r2**2*(y2**2+3*z**2))+r1**10*(12*r2**5*y2+140*r2*y2**3*z**2-20*r2**3*(y2**3+3*y2*z**2))+r1**6*r2**5*(r2**4*(19*y1+2*y2)+8*y2*(12*y1**2+21*y1*y2+2*y2**2)*z**2-8*r2**2*(y1*y2*(4*y1+y2)+3*(3*y1+2*y2)*z**2))+8*r1**7*r2**4*(r2**4*(2*y1+y2)+y2*(3*y1**2+24*y1*y2+8*y2**2)*z**2-r2**2*(y1*y2*(y1+4*y2)+3*(2*y1+3*y2)*z**2))+8*r1**8*r2**3*(r2**4*(y1+2*y2)+5*y2**2*(3*y1+4*y2)*z**2+r2**2*((-3*y1-2*y2)*y2**2-3*(y1+4*y2)*z**2))+r1**9*r2**2*(r2**4*(2*y1+19*y2)+5*y2**2*(6*y1+43*y2)*z**2+r2**2*(-29*y2**3-99*y2*z**2-6*y1*(y2**2+z**2))))-2*l2*(r1+r2)**4*(245*r1*r2**10*y1**3*z**2+70*r2**11*y1**3*z**2+r1**4*r2**7*(r2**2*y1*(6*r2**2-38*y1**2-9*y1*y2)+(-132*r2**2*y1-32*y1**3-9*r2**2*y2+48*y1**2*y2+24*y1*y2**2)*z**2)-5*r1**2*r2**9*y1*(y1*(-56*y1-9*y2)*z**2+2*r2**2*(y1**2+3*z**2))-5*r1**3*r2**8*y1*(-8*y1*(2*y1+3*y2)*z**2+7*r2**2*(y1**2+3*z**2))+r1**6*r2**5*(r2**4*(26*y1+3*y2)+8*y2*(3*y1**2-9*y1*y2+y2**2)*z**2-8*r2**2*(y1+y2)*(y1*y2+3*z**2))+8*r1**7*r2**4*(r2**4*(2*y1+y2)+y2*(3*y1**2+6*y1*y2-4*y2**2)*z**2-r2**2*(y1+y2)*(y1*y2+3*z**2))+r1**11*(6*r2**4*y2+70*y2**3*z**2-10*r2**2*(y2**3+3*y2*z**2))+r1**10*(21*r2**5*y2+245*r2*y2**3*z**2-35*r2**3*(y2**3+3*y2*z**2))+r1**5*r2**6*(21*r2**4*y1+8*y1*(y1**2-9*y1*y2+3*y2**2)*z**2-8*r2**2*(y1**2*(y1+3*y2)+3*(3*y1+y2)*z**2))+r1**9*r2**2*(r2**4*(3*y1+26*y2)+5*y2**2*(9*y1+56*y2)*z**2+r2**2*(-38*y2**3-132*y2*z**2-9*y1*(y2**2+z**2)))+8*r1**8*r2**3*(r2**4*(y1+2*y2)+5*y2**2*(3*y1+2*y2)*z**2-r2**2*(y2**3+9*y2*z**2+3*y1*(y2**2+z**2))))))]

/-- expressions.py:170, numerator of `edge_potential_expr` for `derivative == 5`, `d[8]`. -/
def edgeNum5_8 : PExpr :=
  [py| (-3*(y1-y2)*z*(l2**4*(3*r1**4*r2**9+35*r2**9*y1**2*z**2-5*r1**2*r2**9*(3*y1**2+z**2)+r1**9*(3*r2**4+35*y2**2*z**2-5*r2**2*(3*y2**2+z**2)))+2*l2**2*(r1+r2)**3*(210*r1*r2**9*y1**2*z**2+105*r2**10*y1**2*z**2+r1**4*r2**6*(9*r2**4+2*(12*y1**2-17*y1*y2+2*y2**2)*z**2+r2**2*(-24*y1**2-18*y1*y2-14*z**2))+2*r1**8*r2**2*(5*r2**4+15*y2*(y1+2*y2)*z**2+r2**2*(-9*y1*y2-12*y2**2-7*z**2))+10*r1**3*r2**7*(y1*(-4*y1+y2)*z**2-3*r2**2*(3*y1**2+z**2))-15*r1**2*r2**8*(-2*y1*(2*y1+y2)*z**2+r2**2*(3*y1**2+z**2))+2*r1**5*r2**5*(9*r2**4-3*(2*y1**2-7*y1*y2+2*y2**2)*z**2+r2**2*(6*y1**2-3*y1*y2+z**2))+2*r1**7*r2**3*(r2**4+5*(y1-4*y2)*y2*z**2+r2**2*(-3*(y1-2*y2)*y2+z**2))+2*r1**6*r2**4*(5*r2**4+(2*y1**2-17*y1*y2+12*y2**2)*z**2+r2**2*(-2*y1**2+7*y1*y2-2*y2**2+z**2))+r1**10*(9*r2**4+105*y2**2*z**2-15*r2**2*(3*y2**2+z**2))+r1**9*(18*r2**5+210*r2*y2**2*z**2-30*r2**3*(3*y2**2+z**2)))+(r1+r2)**7*(105*r1*r2**9*y1**2*z**2+35*r2**10*y1**2*z**2+4*r1**7*r2**3*(3*r2**2*(r2**2-3*y1*y2-2*y2**2)-5*(r2**2-3*y1*y2-4*y2**2)*z**2)+r1**4*r2**6*(3*r2**2*(r2**2-4*y1*(4*y1+y2))-4*(5*r2**2-12*y1**2-21*y1*y2-2*y2**2)*z**2)+r1**5*r2**5*(9*r2**4+4*(6*y1**2+23*y1*y2+6*y2**2)*z**2+r2**2*(-24*y1**2-36*y1*y2-20*z**2))+4*r1**6*r2**4*(3*r2**4+(2*y1**2+21*y1*y2+12*y2**2)*z**2+r2**2*(-2*y1**2-11*y1*y2-2*y2**2-5*z**2))+4*r1**8*r2**2*(3*r2**4+5*y2*(y1+6*y2)*z**2+r2**2*(-3*y2*(y1+4*y2)-5*z**2))-5*r1**2*r2**8*(-4*y1*(6*y1+y2)*z**2+r2**2*(3*y1**2+z**2))-5*r1**3*r2**7*(-4*y1*(4*y1+3*y2)*z**2+3*r2**2*(3*y1**2+z**2))+r1**10*(3*r2**4+35*y2**2*z**2-5*r2**2*(3*y2**2+z**2))+r1**9*(9*r2**5+105*r2*y2**2*z**2-15*r2**3*(3*y2**2+z**2)))+l2**3*(-22*r1**6*r2**9-30*r1**5*r2**10-350*r1*r2**10*y1**2*z**2-140*r2**11*y1**2*z**2-2*r1**4*r2**9*(6*r2**2-45*y1**2-6*y1*y2-17*z**2)+50*r1**3*r2**10*(3*y1**2+z**2)-2*r1**9*r2**2*(11*r2**4+5*y2*(2*y1+21*y2)*z**2+r2**2*(-6*y1*y2-45*y2**2-17*z**2))+10*r1**2*r2**9*(y1*(-21*y1-2*y2)*z**2+2*r2**2*(3*y1**2+z**2))+r1**11*(-12*r2**4-140*y2**2*z**2+20*r2**2*(3*y2**2+z**2))+r1**10*(-30*r2**5-350*r2*y2**2*z**2+50*r2**3*(3*y2**2+z**2)))-2*l2*(r1+r2)**5*(175*r1*r2**9*y1**2*z**2+70*r2**10*y1**2*z**2+2*r1**4*r2**6*(3*r2**2*(r2**2-8*y1**2-3*y1*y2)-(11*r2**2+8*y1**2+y1*y2-4*y2**2)*z**2)+2*r1**8*r2**2*(7*r2**4+15*y2*(y1+4*y2)*z**2+r2**2*(-9*y1*y2-24*y2**2-11*z**2))-10*r1**2*r2**8*(-3*y1*(4*y1+y2)*z**2+r2**2*(3*y1**2+z**2))-25*r1**3*(-2*r2**7*y1*y2*z**2+r2**9*(3*y1**2+z**2))+10*r1**7*(r2**7+5*r2**3*y1*y2*z**2-r2**5*(3*y1*y2+z**2))+r1**5*(15*r2**9-30*r2**5*y1*y2*z**2-10*r2**7*(3*y1*y2+z**2))+r1**10*(6*r2**4+70*y2**2*z**2-10*r2**2*(3*y2**2+z**2))+r1**9*(15*r2**5+175*r2*y2**2*z**2-25*r2**3*(3*y2**2+z**2))+2*r1**6*r2**4*(7*r2**4+(4*y1**2-y1*y2-8*y2**2)*z**2-r2**2*(4*y1**2+y1*y2+4*y2**2+3*z**2)))))]

/-- expressions.py:171, numerator of `edge_potential_expr` for `derivative == 5`, `d[9]`. -/
def edgeNum5_9 : PExpr :=
  [py| (3*(x1-x2)*z*(l2**4*(3*r1**4*r2**9+35*r2**9*y1**2*z**2-5*r1**2*r2**9*(3*y1**2+z**2)+r1**9*(3*r2**4+35*y2**2*z**2-5*r2**2*(3*y2**2+z**2)))+2*l2**2*(r1+r2)**3*(210*r1*r2**9*y1**2*z**2+105*r2**10*y1**2*z**2+r1**4*r2**6*(9*r2**4+2*(12*y1**2-17*y1*y2+2*y2**2)*z**2+r2**2*(-24*y1**2-18*y1*y2-14*z**2))+2*r1**8*r2**2*(5*r2**4+15*y2*(y1+2*y2)*z**2+r2**2*(-9*y1*y2-12*y2**2-7*z**2))+10*r1**3*r2**7*(y1*(-4*y1+y2)*z**2-3*r2**2*(3*y1**2+z**2))-15*r1**2*r2**8*(-2*y1*(2*y1+y2)*z**2+r2**2*(3*y1**2+z**2))+2*r1**5*r2**5*(9*r2**4-3*(2*y1**2-7*y1*y2+2*y2**2)*z**2+r2**2*(6*y1**2-3*y1*y2+z**2))+2*r1**7*r2**3*(r2**4+5*(y1-4*y2)*y2*z**2+r2**2*(-3*(y1-2*y2)*y2+z**2))+2*r1**6*r2**4*(5*r2**4+(2*y1**2-17*y1*y2+12*y2**2)*z**2+r2**2*(-2*y1**2+7*y1*y2-2*y2**2+z**2))+r1**10*(9*r2**4+105*y2**2*z**2-15*r2**2*(3*y2**2+z**2))+r1**9*(18*r2**5+210*r2*y2**2*z**2-30*r2**3*(3*y2**2+z**2)))+(r1+r2)**7*(105*r1*r2**9*y1**2*z**2+35*r2**10*y1**2*z**2+4*r1**7*r2**3*(3*r2**2*(r2**2-3*y1*y2-2*y2**2)-5*(r2**2-3*y1*y2-4*y2**2)*z**2)+r1**4*r2**6*(3*r2**2*(r2**2-4*y1*(4*y1+y2))-4*(5*r2**2-12*y1**2-21*y1*y2-2*y2**2)*z**2)+r1**5*r2**5*(9*r2**4+4*(6*y1**2+23*y1*y2+6*y2**2)*z**2+r2**2*(-24*y1**2-36*y1*y2-20*z**2))+4*r1**6*r2**4*(3*r2**4+(2*y1**2+21*y1*y2+12*y2**2)*z**2+r2**2*(-2*y1**2-11*y1*y2-2*y2**2-5*z**2))+4*r1**8*r2**2*(3*r2**4+5*y2*(y1+6*y2)*z**2+r2**2*(-3*y2*(y1+4*y2)-5*z**2))-5*r1**2*r2**8*(-4*y1*(6*y1+y2)*z**2+r2**2*(3*y1**2+z**2))-5*r1**3*r2**7*(-4*y1*(4*y1+3*y2)*z**2+3*r2**2*(3*y1**2+z**2))+r1**10*(3*r2**4+35*y2**2*z**2-5*r2**2*(3*y2**2+z**2))+r1**9*(9*r2**5+105*r2*y2**2*z**2-15*r2**3*(3*y2**2+z**2)))+l2**3*(-22*r1**6*r2**9-30*r1**5*r2**10-350*r1*r2**10*y1**2*z**2-140*r2**11*y1**2*z**2-2*r1**4*r2**9*(6*r2**2-45*y1**2-6*y1*y2-17*z**2)+50*r1**3*r2**10*(3*y1**2+z**2)-2*r1**9*r2**2*(11*r2**4+5*y2*(2*y1+21*y2)*z**2+r2**2*(-6*y1*y2-45*y2**2-17*z**2))+10*r1**2*r2**9*(y1*(-21*y1-2*y2)*z**2+2*r2**2*(3*y1**2+z**2))+r1**11*(-12*r2**4-140*y2**2*z**2+20*r2**2*(3*y2**2+z**2))+r1**10*(-30*r2**5-350*r2*y2**2*z**2+50*r2**3*(3*y2**2+z**2)))-2*l2*(r1+r2)**5*(175*r1*r2**9*y1**2*z**2+70*r2**10*y1**2*z**2+2*r1**4*r2**6*(3*r2**2*(r2**2-8*y1**2-3*y1*y2)-(11*r2**2+8*y1**2+y1*y2-4*y2**2)*z**2)+2*r1**8*r2**2*(7*r2**4+15*y2*(y1+4*y2)*z**2+r2**2*(-9*y1*y2-24*y2**2-11*z**2))-10*r1**2*r2**8*(-3*y1*(4*y1+y2)*z**2+r2**2*(3*y1**2+z**2))-25*r1**3*(-2*r2**7*y1*y2*z**2+r2**9*(3*y1**2+z**2))+10*r1**7*(r2**7+5*r2**3*y1*y2*z**2-r2**5*(3*y1*y2+z**2))+r1**5*(15*r2**9-30*r2**5*y1*y2*z**2-10*r2**7*(3*y1*y2+z**2))+r1**10*(6*r2**4+70*y2**2*z**2-10*r2**2*(3*y2**2+z**2))+r1**9*(15*r2**5+175*r2*y2**2*z**2-25*r2**3*(3*y2**2+z**2))+2*r1**6*r2**4*(7*r2**4+(4*y1**2-y1*y2-8*y2**2)*z**2-r2**2*(4*y1**2+y1*y2+4*y2**2+3*z**2)))))]

/-- expressions.py:172, numerator of `edge_potential_expr` for `derivative == 5`, `d[10]`. -/
def edgeNum5_10 : PExpr :=
  [py| (3*(x1-x2)*(2*l2**2*(r1+r2)**4*(r1**4*r2**6*(3*r1**3-2*r1**2*r2+9*r1*r2**2+9*r2**3)*y1+r1**6*r2**4*(9*r1**3+9*r1**2*r2-2*r1*r2**2+3*r2**3)*y2-6*r1**2*r2**2*(15*r1*r2**6*y1+15*r2**7*y1+r1**5*r2**2*(3*y1-4*y2)+r1**3*r2**4*(y1-2*y2)+15*r1**7*y2+15*r1**6*r2*y2+r1**4*r2**3*(-2*y1+y2)+r1**2*r2**5*(-4*y1+3*y2))*z**2+(105*r1*r2**8*y1+105*r2**9*y1-3*r1**5*r2**4*(y1-4*y2)+15*r1**7*r2**2*(y1-2*y2)+3*r1**4*r2**5*(4*y1-y2)+105*r1**9*y2+105*r1**8*r2*y2+15*r1**2*r2**7*(-2*y1+y2)-5*r1**6*r2**3*(2*y1+y2)-5*r1**3*r2**6*(y1+2*y2))*z**4)-2*l2*(r1+r2)**6*(r1**4*r2**6*(3*r1+2*r2)*(r1**2+3*r2**2)*y1+r1**6*r2**4*(2*r1+3*r2)*(3*r1**2+r2**2)*y2-6*r1**2*r2**2*(15*r1*r2**6*y1+10*r2**7*y1+10*r1**7*y2+15*r1**6*r2*y2+r1**4*r2**3*(2*y1+y2)+r1**3*r2**4*(y1+2*y2)+r1**2*r2**5*(4*y1+3*y2)+r1**5*r2**2*(3*y1+4*y2))*z**2+(105*r1*r2**8*y1+70*r2**9*y1-5*r1**3*r2**6*(y1-2*y2)+5*r1**6*r2**3*(2*y1-y2)+70*r1**9*y2+105*r1**8*r2*y2+15*r1**2*r2**7*(2*y1+y2)-3*r1**4*r2**5*(4*y1+y2)+15*r1**7*r2**2*(y1+2*y2)-3*r1**5*r2**4*(y1+4*y2))*z**4)+(r1+r2)**8*(r1**4*r2**6*(2*r1**3+4*r1**2*r2+6*r1*r2**2+3*r2**3)*y1+r1**6*r2**4*(3*r1**3+6*r1**2*r2+4*r1*r2**2+2*r2**3)*y2-6*r1**2*r2**2*(10*r1*r2**6*y1+5*r2**7*y1+5*r1**7*y2+10*r1**6*r2*y2+2*r1**2*r2**5*(4*y1+y2)+2*r1**3*r2**4*(3*y1+2*y2)+2*r1**4*r2**3*(2*y1+3*y2)+2*r1**5*r2**2*(y1+4*y2))*z**2+5*(14*r1*r2**8*y1+7*r2**9*y1+7*r1**9*y2+14*r1**8*r2*y2+2*r1**2*r2**7*(6*y1+y2)+2*r1**3*r2**6*(5*y1+2*y2)+2*r1**4*r2**5*(4*y1+3*y2)+2*r1**5*r2**4*(3*y1+4*y2)+2*r1**6*r2**3*(2*y1+5*y2)+2*r1**7*r2**2*(y1+6*y2))*z**4)+l2**4*(3*r1**4*r2**9*y1-30*r1**2*r2**9*y1*z**2+35*r2**9*y1*z**4+r1**9*y2*(3*r2**4-30*r2**2*z**2+35*z**4))-2*l2**3*(15*r1**5*r2**10*y1+r1**6*r2**9*(10*y1+y2)-150*r1**3*r2**10*y1*z**2+175*r1*r2**10*y1*z**4+70*r2**11*y1*z**4+6*r1**4*r2**9*(r2**2*y1-(16*y1+y2)*z**2)+5*r1**2*r2**9*z**2*(-12*r2**2*y1+(22*y1+y2)*z**2)+2*r1**11*y2*(3*r2**4-30*r2**2*z**2+35*z**4)+5*r1**10*r2*y2*(3*r2**4-30*r2**2*z**2+35*z**4)+r1**9*r2**2*(r2**4*(y1+10*y2)-6*r2**2*(y1+16*y2)*z**2+5*(y1+22*y2)*z**4))))]

/-- expressions.py:162-172, all numerators for `derivative == 5`. -/
def edgeNum5 : List PExpr :=
  [edgeNum5_0, edgeNum5_1, edgeNum5_2, edgeNum5_3, edgeNum5_4, edgeNum5_5, edgeNum5_6, edgeNum5_7, edgeNum5_8, edgeNum5_9, edgeNum5_10]

end

end Electrode
