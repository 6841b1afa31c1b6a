import Verif.Model.Recurrence
import Verif.Model.NonLinear
import Verif.Model.WeightedAvg
import Verif.Model.Verify

/-!
# The solution on the initial conditions: `src/Recurrence.cc:876-1133`

`compute_solution_or_bound_on_i_c` and the functions for the types of recurrences: the values
given by the user are put into the symbolic solution.

Simplifications: GiNaC's `lsolve` is a parameter (the list of the values of the unknowns, `none`
for the empty list it returns when it fails), so are the new symbols and the simplifications
applied to the result; `none` is undefined behaviour (the iterator runs over the end of the map).
-/

namespace Purrs.OnIC

open NonLinear (substX logE)
open WeightedAvg (WA rewriteWA computeWA)
open Verify (xAt getIC maxIC hasIC)

/-- The operations that are not modelled. -/
structure Ops where
  /-- `lsolve(equations, unknowns)`. -/
  lsolve : List (Expr × Expr) → List String → Option (List Expr)
  /-- The new symbols `Symbol()`. -/
  fresh : ℕ → String
  /-- `simplify_numer_denom` and `simplify_ex_for_output`. -/
  simp : Expr → Expr
  /-- `simplify_ex_for_input` and `simplify_logarithm`. -/
  simpLog : Expr → Expr

/-- The symbolic initial conditions are replaced by the unknowns (src/Recurrence.cc:889-895,
974-980). -/
def abstractIC (O : Ops) (first order : ℕ) (sol : Expr) : Expr :=
  (List.range order).foldl (fun e i => substitute (xAt (first + i)) (.sym (O.fresh i)) e) sol

/-- The `order` last initial conditions, in the order of the map (the equations are
prepended, src/Recurrence.cc:902-909). -/
def lastICs (order : ℕ) (m : ICMap) : ICMap := (m.reverse.take order).reverse

/-- The linear system (src/Recurrence.cc:902-909, 987-994); `val` is the identity or the
logarithm. -/
def equations (n : String) (order : ℕ) (m : ICMap) (val : Expr → Expr) (e : Expr) : List (Expr × Expr) :=
  (lastICs order m).map fun p => (substitute (.sym n) (.num p.1) e, val p.2)

/-- The unknowns are replaced by their values, from the last to the first
(src/Recurrence.cc:915-917, 1000-1003). -/
def backSub (O : Ops) (vals : List Expr) (e : Expr) : Expr :=
  (List.range vals.length).foldr (fun i e => substitute (.sym (O.fresh i)) (vals.getD i (.num 0)) e) e

/-- The linear system is built and solved (src/Recurrence.cc:885-918, 970-1003).  If `lsolve`
fails the unknowns stay in the result. -/
def bySystem (O : Ops) (n : String) (first order : ℕ) (m : ICMap) (val : Expr → Expr) (sol : Expr) : Option Expr :=
  if m.length < order then none
  else
    let e := abstractIC O first order sol
    some (match O.lsolve (equations n order m val e) ((List.range order).map O.fresh) with
      | some vals => backSub O vals e
      | none => e)

/-- All initial conditions of the map are substituted (src/Recurrence.cc:922-927, 1017-1022). -/
def substAll (m : ICMap) (sol : Expr) : Expr := m.foldl (fun e p => substitute (xAt p.1) p.2 e) sol

/-- `compute_solution_linear_finite_order_on_i_c` (src/Recurrence.cc:877-932). -/
def linear (O : Ops) (n : String) (first order : ℕ) (m : ICMap) (sol : Expr) : Option Expr :=
  match RecState.largestKey m with
  | none => none
  | some L =>
      (if first + order ≤ L then bySystem O n first order m id sol else some (substAll m sol)).map O.simp

/-- The data of a non-linear recurrence: `coeff_simple_non_linear_rec()`, `base_exp_log()` and the
solution of the associated linear recurrence. -/
structure NLData where
  coeffSimple : ℚ
  base : Expr
  linSol : Expr

/-- The first loop (src/Recurrence.cc:944-948): the iterator is not advanced, so only the last
initial condition is looked at. -/
def lastIsZero (order : ℕ) (m : ICMap) : Bool :=
  decide (0 < order) && decide (m.getLast?.map Prod.snd = some (.num 0))

/-- `compute_solution_non_linear_finite_order_on_i_c` (src/Recurrence.cc:934-1027). -/
def nonLinear (O : Ops) (n : String) (first order : ℕ) (d : NLData) (m : ICMap) (sol : Expr) : Option Expr :=
  match m.getLast? with
  | none => none
  | some (L, h) =>
      if lastIsZero order m then some (.num 0)
      else if first + order ≤ L then
        if d.coeffSimple ≠ 0 then
          some (substitute (.sym n) (subE (.sym n) (.num L)) (substitute (xAt 0) h sol))
        else
          (bySystem O n first order m (fun v => logE d.base v) d.linSol).map fun s =>
            O.simp (O.simpLog (substX d.base .argumentLog (powE d.base s)))
      else some (O.simp (substAll m sol))

/-- `compute_solution_weighted_average_on_i_c` (src/Recurrence.cc:1029-1068): `weight` and `inhom` are
`weight_rec` and `inhomogeneous`; `z` is the answer of the domain tests in the classification of the new
recurrence, `sol1` the solution of its associated first order recurrence. -/
def weighted (n : String) (first : ℕ) (weight inhom : Expr) (z : ℕ) (sol1 : Expr) (m : ICMap) (sol : Expr) : Option Expr :=
  if first < maxIC m then
    (rewriteWA n false (maxIC m) weight inhom z).map fun wa =>
      substitute (xAt (maxIC m)) (getIC m (maxIC m)) (computeWA n wa sol1)
  else some (substitute (xAt first) (getIC m first) sol)

/-- `compute_bound_functional_equation_on_i_c` (src/Recurrence.cc:1070-1079). -/
def functional (divisor : ℚ) (m : ICMap) (bound : Expr) : Expr :=
  if divisor = 2 then substitute (xAt 1) (getIC m 1) bound else bound

/-- `compute_solution_or_bound_on_i_c` (src/Recurrence.cc:1101-1133): `none` for the exception and for undefined behaviour;
for `ORDER_ZERO` the expression is left zero. -/
def evaluate (O : Ops) (n : String) (info : Info) (d : NLData) (weight inhom : Expr) (z : ℕ) (sol1 : Expr) (m : ICMap) (sol : Expr) : Option Expr :=
  if hasIC n sol = false then some sol
  else
    match info.ty with
    | .orderZero => some (.num 0)
    | .linConst => linear O n info.first info.order m sol
    | .linVar => linear O n info.first info.order m sol
    | .nonLinear => nonLinear O n info.first info.order d m sol
    | .weighted => weighted n info.first weight inhom z sol1 m sol
    | .functional => some (functional info.divisor m sol)
    | .unknown => none
    | .maxFn => none

end Purrs.OnIC
