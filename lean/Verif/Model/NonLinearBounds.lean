import Verif.Model.Bounds
import Verif.Model.NonLinear

/-!
# Bounds for non-linear functional equations: the second part of `compute_non_linear_recurrence`
(src/Recurrence.cc:574-627)

The associated linear recurrence is a functional equation; its bounds are computed by
`approximate_functional_equation` (`Verif.Model.Bounds`) and put in the exponent of the base.

Simplifications: `simplify_logarithm`, `simplify_ex_for_input` are the parameter `simp`; the auxiliary symbols that stand for
negative numbers are not modelled.
-/

namespace Purrs.NonLinear

open Purrs

/-- The kinds of result that are asked for (the argument `type` of `compute_non_linear_recurrence`: 1, 2 and 0). -/
inductive Want where
  | lower | upper | exact
  deriving DecidableEq

/-- The result in terms of the non-linear recurrence (src/Recurrence.cc:613-615). -/
def backBound (simp : Expr → Expr) (base e : Expr) : Expr := simp (substX base .argumentLog e)

/-- src/Recurrence.cc:575-627; `lower` and `upper` are the bounds of the associated linear recurrence (`none` if they are
not computed).  For the exact solution nothing is assigned: the expression is still zero. -/
def nonLinearFunctional (simp : Expr → Expr) (base : Expr) (lower upper : Option Expr) : Want → Option Expr
  | .lower => lower.map fun w => backBound simp base (powE base w)
  | .upper => upper.map fun w => backBound simp base (powE base w)
  | .exact =>
    lower.bind fun l => upper.bind fun u => if l ≠ u then none else some (backBound simp base (.num 0))

/-- The bounds for `x(n) = x(n/b)^a`: the associated linear recurrence is `x(n) = a x(n/b)`, the base is `a`
(src/rr_classifier.cc:770-786); `c` is the applicability condition. -/
def powerBound (n : String) (cmp : Expr → Expr → Bounds.Cmp) (S : Bounds.Sums) (simp : Expr → Expr) (a b : ℚ) (c : ℕ) (w : Want) : Option Expr :=
  nonLinearFunctional simp (.num a) (Bounds.approximate n cmp S .lower (.num a) b (.num 0) [] c)
    (Bounds.approximate n cmp S .upper (.num a) b (.num 0) [] c) w

end Purrs.NonLinear
