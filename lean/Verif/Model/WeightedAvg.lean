import Verif.Model.Expr

/-!
# Model of the weighted-average recurrences (src/rr_classifier.cc, src/Recurrence.cc)

`x(n) = f(n) sum(k, n_0, u(n), x(k)) + g(n)` with `u(n)` equal to `n` or `n - 1`.  `n` is the name of
`Recurrence::n`.

Simplifications: `simplify_all`, assumed here not to change the value (see C52), is omitted; the answer of
`find_domain_in_N` is a parameter; the solver of the associated first order recurrence is a parameter
(modelled in `Verif.Model.Exact`).
-/

namespace Purrs.WeightedAvg

open Purrs

/-- `a / b` (src/Expr.inlines.hh). -/
def divE (a b : Expr) : Expr := mulE a (powE b (.num (-1)))

/-- `n + c`. -/
def shiftN (n : String) (c : ℚ) : Expr := addE (.sym n) (.num c)

/-- What the classification stores about a weighted-average recurrence: `weight()`, `inhomogeneous_term`,
`original_weight()`, `original_inhomogeneous()`, `lower_limit()`, `recurrence_rewritten`, the right-hand side of
the associated first order recurrence and `first_valid_index`
(src/Weighted_Average_Info.defs.hh, src/rr_classifier.cc:1186-1200). -/
structure WA where
  weight : Expr
  inhom : Expr
  origWeight : Expr
  origInhom : Expr
  lower : ℕ
  rewritten : Bool
  rhsFirst : Expr
  first : ℕ

/-- The weight, the inhomogeneous term and the lower limit after the rewriting of the upper limit
(src/rr_classifier.cc:945-962). -/
def upperStep (n : String) (upperIsN : Bool) (lower : ℕ) (weight inhom : Expr) : Expr × Expr × ℕ :=
  if upperIsN then
    if weight ≠ .num 1 then
      (divE weight (subE (.num 1) weight), divE inhom (subE (.num 1) weight), lower)
    else (mulE weight (.num (-1)), negE (substitute (.sym n) (shiftN n 1) inhom), lower + 1)
  else (weight, inhom, lower)

/-- `rhs_first_order` (src/rr_classifier.cc:993-1010). -/
def firstOrderRhs (n : String) (weight inhom : Expr) : Expr :=
  let ws := substitute (.sym n) (shiftN n (-1)) weight
  let co := substitute (.sym n) (shiftN n 1) (mulE (divE weight ws) (addE (.num 1) ws))
  let is := substitute (.sym n) (shiftN n (-1)) inhom
  let ih := substitute (.sym n) (shiftN n 1) (mulE weight (subE (divE inhom weight) (divE is ws)))
  addE (mulE co (.fn .x [shiftN n (-1)])) ih

/-- `rewrite_weighted_average_recurrence` (src/rr_classifier.cc:912-1013), from the extraction of the weight and
of the inhomogeneous term on, with the bookkeeping of its caller (src/rr_classifier.cc:1178-1200); `z` is the
integer found by the three calls of `find_domain_in_N`; `none` is `CL_DOMAIN_ERROR`. -/
def rewriteWA (n : String) (upperIsN : Bool) (lower : ℕ) (weight inhom : Expr) (z : ℕ) : Option WA :=
  let u := upperStep n upperIsN lower weight inhom
  let w := if u.2.2 > 0 then substitute (.sym n) (shiftN n (u.2.2 : ℚ)) u.1 else u.1
  let g := if u.2.2 > 0 then substitute (.sym n) (shiftN n (u.2.2 : ℚ)) u.2.1 else u.2.1
  if z > u.2.2 then none
  else some ⟨w, g, u.1, u.2.1, lower, upperIsN || decide (u.2.2 > 0), firstOrderRhs n w g, max z lower⟩

/-- `compute_weighted_average_recurrence` (src/Recurrence.cc:698-745); `sol1` is the solution of the associated
first order recurrence. -/
def computeWA (n : String) (w : WA) (sol1 : Expr) : Expr :=
  if w.weight = .num (-1) then
    subE w.inhom (substitute (.sym n) (shiftN n (-1)) w.inhom)
  else
    let wr := if w.rewritten then w.origWeight else w.weight
    let ih := if w.rewritten then w.origInhom else w.inhom
    let lo : ℕ := if w.rewritten then w.lower else 0
    substitute (.fn .x [.num 0])
      (substitute (.sym n) (.num ((lo : ℚ) + 1)) (addE (mulE wr (.fn .x [.num lo])) ih))
      (substitute (.sym n) (shiftN n (-1 - lo)) sol1)

end Purrs.WeightedAvg
