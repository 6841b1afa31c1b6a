import Verif.Model.Recurrence

/-!
# Recurrences with a maximum, `x(n) = max(f, a)`
-/

namespace Purrs.MaxRec

open RecState

/-- `is_a_number() || is_a_symbol()` (src/Recurrence.cc:1274, 1278). -/
def isLeaf : Expr → Bool
  | .num _ => true
  | .sym _ => true
  | _ => false

/-- The two arguments, first the number or symbol (src/Recurrence.cc:1272-1282); `none` is the return of `TOO_COMPLEX`. -/
def maxArgs : Expr → Option (Expr × Expr)
  | .fn .max [p, q] => if isLeaf p then some (p, q) else if isLeaf q then some (q, p) else none
  | _ => none

/-- How `compute_exact_solution_max` ends: with a status other than success, with an exception, or with a solution. -/
inductive Outcome where
  | status (s : SolverStatus)
  | throws
  | solution (v : Expr)
  deriving DecidableEq

/-- The auxiliary recurrence after its classification (src/Recurrence.cc:1284-1288).  Simplifications: `E.classify` also rewrites right-hand sides with negative
or null decrements, which the call of `classify()` does not; if the classification fails the code goes on with the type reached, here it stops. -/
def aux (E : Engine) (f : Expr) : RecState := (RecState.new f).classify E

/-- `is_linear_finite_order()` (src/Recurrence.inlines.hh:307-313). -/
def isLinear (t : RType) : Bool := t = .orderZero || t = .linConst || t = .linVar

/-- The last part (src/Recurrence.cc:1303-1308): the initial condition `x(0) = a` is given to the auxiliary recurrence, which is asked for its solution. -/
def ask (E : Engine) (t : RecState) (a : Expr) : Outcome :=
  match setICs E t [(0, a)] with
  | (u, .accepted) =>
    match (getExact E u).2 with
    | some v => .solution v
    | none => .throws
  | _ => .throws

/-- `compute_exact_solution_max` (src/Recurrence.cc:1264-1311), without initial conditions for the recurrence itself (they are refused by
`set_initial_conditions`). -/
def solve (E : Engine) (rhs : Expr) : Outcome :=
  match maxArgs rhs with
  | none => .status .tooComplex
  | some (a, f) =>
    if (aux E f).cl ≠ .success then .status .tooComplex
    else if isLinear (aux E f).info.ty = false then .status .tooComplex
    else
      match computeExact E (aux E f) with
      | (t, some .success) => ask E t a
      | (_, some st) => .status st
      | (_, none) => .throws

end Purrs.MaxRec
