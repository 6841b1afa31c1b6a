import Verif.Model.Recurrence
import Verif.Model.Verify

/-!
# The verification methods of `PURRS::Recurrence` (src/verify.cc:1279-1356)

What the methods verify and how they dispatch.  The checks themselves are parameters (`Checks`); `Verif.Model.Verify` models
them.  Simplification: the associated recurrence of a non-linear recurrence or of a weighted average is determined by the
right-hand side and by the classification.
-/

namespace Purrs

open Verify (Verdict)

/-- The checks: `verify_finite_order` (src/verify.cc:715-1001) and `verify_weighted_average` (src/verify.cc:1056-1118) for a
right-hand side, a classification, initial conditions and the expression that is verified;
`associated_linear_rec().verify_exact_solution(true)` and `associated_first_order_rec().verify_exact_solution(true)`
(src/verify.cc:1304, 1316); `verify_bound` (src/verify.cc:1186-1277).  `none` is a failing assertion. -/
structure Checks where
  finite : Expr → Info → ICMap → Expr → Bool → Option Verdict
  weighted : Expr → Info → ICMap → Expr → Verdict
  assoc : Expr → Info → Option Verdict
  bound : BoundKind → Expr → Info → Expr → Verdict

/-- What a verification method does. -/
inductive VResult where
  | verdict (v : Verdict)
  | logicError
  | internalError
  | failure
  deriving DecidableEq

/-- A verdict or a failing assertion. -/
def VResult.of : Option Verdict → VResult
  | some v => .verdict v
  | none => .failure

namespace RecState

/-- The expression that `verify_finite_order` verifies (src/verify.cc:720-722, 793-797): without initial conditions
`exact_solution_.expression()`, with them `evaluated_exact_solution_.expression()`.  The expression of a `Cached_Expr` that
was never set, or that was unset, is zero (src/Cached_Expr.inlines.hh:30-36, 75-79; src/Expr.inlines.hh:72-74). -/
def subjectFinite (s : RecState) : Expr :=
  if s.ics = [] then s.exact.getD (.num 0) else s.evExact.getD (.num 0)

/-- The expression that `verify_weighted_average` verifies (src/verify.cc:1088-1093). -/
def subjectWeighted (s : RecState) : Expr := s.evExact.getD (s.exact.getD (.num 0))

/-- `verify_exact_solution(partial_verification)` (src/verify.cc:1279-1325). -/
def verifyExact (C : Checks) (s : RecState) (p : Bool) : VResult :=
  if s.exact = none then .logicError
  else match s.info.ty with
    | .orderZero => .of (C.finite s.rhs s.info s.ics s.subjectFinite p)
    | .linConst => .of (C.finite s.rhs s.info s.ics s.subjectFinite p)
    | .linVar => .of (C.finite s.rhs s.info s.ics s.subjectFinite p)
    | .nonLinear =>
      if C.finite s.rhs s.info s.ics s.subjectFinite p = some .inconclusive ∧ p = false then .of (C.assoc s.rhs s.info)
      else .of (C.finite s.rhs s.info s.ics s.subjectFinite p)
    | .weighted =>
      if C.weighted s.rhs s.info s.ics s.subjectWeighted = .inconclusive ∧ p = false then .of (C.assoc s.rhs s.info)
      else .verdict (C.weighted s.rhs s.info s.ics s.subjectWeighted)
    | .functional => .verdict .inconclusive
    | .unknown => .internalError
    | .maxFn => .internalError

/-- `verify_lower_bound()` (src/verify.cc:1327-1340); `verify_bound(LOWER)` works on `lower_bound_`
(src/verify.cc:1195-1202). -/
def verifyLower (C : Checks) (s : RecState) : VResult :=
  if s.exact ≠ none then verifyExact C s false
  else match s.lower with
    | some b => if s.info.ty = .functional then .verdict (C.bound .lower s.rhs s.info b) else .verdict .inconclusive
    | none => .logicError

/-- `verify_upper_bound()` (src/verify.cc:1342-1356). -/
def verifyUpper (C : Checks) (s : RecState) : VResult :=
  if s.exact ≠ none then verifyExact C s false
  else match s.upper with
    | some b => if s.info.ty = .functional then .verdict (C.bound .upper s.rhs s.info b) else .verdict .inconclusive
    | none => .logicError

end RecState
end Purrs
