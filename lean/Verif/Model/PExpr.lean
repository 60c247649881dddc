import Mathlib.Algebra.Ring.Defs
import Mathlib.Data.Int.Cast.Defs

/-
Syntax of the polynomial expressions that occur in `electrode/expressions.py`, so that
the long closed forms can be copied as written and both evaluated and differentiated.
-/
namespace Electrode

/-- expressions.py:37-172: A polynomial expression as written in the source: literals, variables, `+ - * **`. -/
inductive PExpr
  | c (n : Nat)
  | v (i : Nat)
  | neg (a : PExpr)
  | add (a b : PExpr)
  | sub (a b : PExpr)
  | mul (a b : PExpr)
  | pow (a : PExpr) (n : Nat)
  deriving DecidableEq, Repr

namespace PExpr

/-- expressions.py:37-172: Value of the expression in a ring, given the values of the variables. -/
def eval {R : Type*} [CommRing R] (ρ : Nat → R) : PExpr → R
  | c n => (n : R)
  | v i => ρ i
  | neg a => -eval ρ a
  | add a b => eval ρ a + eval ρ b
  | sub a b => eval ρ a - eval ρ b
  | mul a b => eval ρ a * eval ρ b
  | pow a n => eval ρ a ^ n

end PExpr

/-! Reader for Python arithmetic: `[py| -3*x*z + r**2]` is the syntax tree of the text.
Precedences are Python's: `**` binds tighter than unary minus, which binds tighter than
`*`, which binds tighter than `+` and `-`; all binary operators associate to the left. -/

declare_syntax_cat pyexpr
syntax:max num : pyexpr
syntax:max ident : pyexpr
syntax:max "(" pyexpr ")" : pyexpr
syntax:80 pyexpr:81 "**" num : pyexpr
syntax:75 "-" pyexpr:75 : pyexpr
syntax:70 pyexpr:70 "*" pyexpr:71 : pyexpr
syntax:65 pyexpr:65 "+" pyexpr:66 : pyexpr
syntax:65 pyexpr:65 "-" pyexpr:66 : pyexpr
syntax "[py|" pyexpr "]" : term

macro_rules
  | `([py| $n:num]) => `(PExpr.c $n)
  | `([py| $x:ident]) => `($x)
  | `([py| ($e:pyexpr)]) => `([py| $e])
  | `([py| $a:pyexpr ** $n:num]) => `(PExpr.pow [py| $a] $n)
  | `([py| -$a:pyexpr]) => `(PExpr.neg [py| $a])
  | `([py| $a:pyexpr * $b:pyexpr]) => `(PExpr.mul [py| $a] [py| $b])
  | `([py| $a:pyexpr + $b:pyexpr]) => `(PExpr.add [py| $a] [py| $b])
  | `([py| $a:pyexpr - $b:pyexpr]) => `(PExpr.sub [py| $a] [py| $b])

end Electrode
