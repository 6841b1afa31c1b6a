import Verif.Model.Classify
import Verif.Model.WeightedAvg
import Verif.Model.Functional

/-!
# Model of the recognition of weighted-average recurrences (src/rr_classifier.cc:912-991, 1158-1205, 1272-1326)

From the right-hand side written by the user to the weight, the inhomogeneous term and the limits of the sum.  `n` is the name of
`Recurrence::n`.

Simplifications: `simplify_ex_for_input` (inside `collect_term`), `expand`, `degree`, `numerator`, `denominator` and the cancellation of equal
terms that GiNaC performs when `rhs - weight * term_sum` is built are parameters; a lower limit of the sum that is not a non-negative integer,
on which the code stops with a failing assertion, is treated like a refusal; `simplify_all` is omitted as in `Verif.Model.WeightedAvg`.
-/

namespace Purrs.WeightedExtract

open Classify (isWeightedSum classify)
open WeightedAvg (shiftN rewriteWA WA upperStep)
open Functional (Env findDomain)

/-- The operations that are parameters of this module. -/
structure Ops where
  simp : Expr → Expr
  cancel : Expr → Expr
  expand : Expr → Expr
  degree : String → Expr → ℕ
  num : Expr → Expr
  den : Expr → Expr
  env : Env
  fuel : ℕ

/-- The sum found in an addend, with the other factors of the addend (src/rr_classifier.cc:1160-1162, 1221-1275, 1285-1288): the factors are
read from the last. -/
def sumIn (n : String) : Expr → Option (Expr × List Expr)
  | .mul fs => (fs.reverse.find? (isWeightedSum n)).map fun t => (t, fs.filter fun a => a ≠ t)
  | a => if isWeightedSum n a then some (a, []) else none

/-- What is read from the right-hand side: weight, inhomogeneous term, lower limit, and whether the upper limit is `n`. -/
structure Extracted where
  weight : Expr
  inhom : Expr
  lower : ℕ
  upperIsN : Bool

/-- The weight before the rewriting (src/rr_classifier.cc:1168-1169, 1282-1288). -/
def weightOf (O : Ops) (rhs term : Expr) (others : List Expr) : Expr :=
  if (collectTerm term (O.simp rhs)).2 = .num 1 then others.foldr (fun a acc => mulE acc a) (.num 1)
  else (collectTerm term (O.simp rhs)).2

/-- The inhomogeneous term before the rewriting (src/rr_classifier.cc:923). -/
def inhomOf (O : Ops) (rhs term : Expr) (others : List Expr) : Expr :=
  O.cancel (subE (collectTerm term (O.simp rhs)).1 (mulE (weightOf O rhs term others) term))

/-- The summand with a new symbol `y` in place of `x(k)` (src/rr_classifier.cc:939-940). -/
def summandIn (O : Ops) (y : String) (i body : Expr) : Expr := O.expand (substitute (.fn .x [i]) (.sym y) body)

/-- The conditions under which the recurrence is taken for a weighted average (src/rr_classifier.cc:931-942). -/
def accepted (O : Ops) (n y : String) (weight inhom i up body : Expr) : Bool :=
  !hasXOf (.sym n) weight && !hasXOf (.sym n) inhom && !hasParameters n weight && (decide (up = .sym n) || decide (up = shiftN n (-1))) &&
    isPolynomial y (summandIn O y i body) && decide (O.degree y (summandIn O y i body) ≤ 1)

/-- The first part of `rewrite_weighted_average_recurrence` (src/rr_classifier.cc:912-943); `none` is the answer `false`. -/
def extract (O : Ops) (n y : String) (rhs term : Expr) (others : List Expr) : Option Extracted :=
  match term with
  | .binder .sum i (.num lo) up body =>
    if lo.den = 1 ∧ 0 ≤ lo ∧ accepted O n y (weightOf O rhs term others) (inhomOf O rhs term others) i up body = true then
      some ⟨weightOf O rhs term others, inhomOf O rhs term others, lo.num.toNat, decide (up = .sym n)⟩
    else none
  | _ => none

/-- One call of `find_domain_in_N`: the new `z`, `none` on failure. -/
def domStep (O : Ops) (n : String) (e : Expr) (z : ℤ) : Option ℤ :=
  if (findDomain O.env n O.fuel e z).1 then some (findDomain O.env n O.fuel e z).2 else none

/-- The three calls of `find_domain_in_N` (src/rr_classifier.cc:966-979): `none` is the answer `false`. -/
def domain (O : Ops) (n : String) (weight inhom : Expr) : Option ℕ :=
  ((domStep O n (O.num weight) 0).bind fun z => (domStep O n (O.den weight) z).bind fun z => domStep O n (O.den inhom) z).map Int.toNat

/-- The sum on which the classification stops (src/rr_classifier.cc:1499-1525). -/
def sumOf (n : String) (rhs : Expr) : Option (Expr × List Expr) := (addends rhs).findSome? (sumIn n)

/-- From the weight and the inhomogeneous term to what is stored (src/rr_classifier.cc:945-1013, 1175-1200). -/
def store (O : Ops) (n : String) (r : Extracted) : Option WA :=
  (domain O n (upperStep n r.upperIsN r.lower r.weight r.inhom).1 (upperStep n r.upperIsN r.lower r.weight r.inhom).2.1).bind fun z =>
    rewriteWA n r.upperIsN r.lower r.weight r.inhom z

/-- The classification of a right-hand side as weighted average (src/rr_classifier.cc:1160-1205, 1272-1326): what was read and what is stored;
`none` is `CL_TOO_COMPLEX`, `CL_DOMAIN_ERROR` or another class. -/
def classifyWA (O : Ops) (n y : String) (maxSize : ℕ) (rhs : Expr) : Option (Extracted × WA) :=
  match classify n maxSize rhs with
  | .weighted => (sumOf n rhs).bind fun t => (extract O n y rhs t.1 t.2).bind fun r => (store O n r).map fun wa => (r, wa)
  | _ => none

end Purrs.WeightedExtract
