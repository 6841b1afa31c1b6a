import Verif.Model.Classify
import Verif.Model.WeightedAvg

/-!
# Model of the rewriting into standard form (src/rr_classifier.cc:174-464, 1615-1682)

Simplifications: `Expr::expand` and `Expr::collect` (GiNaC) are parameters; `int`s are unbounded; the second
execution of the loop of `classify_and_catch_special_cases` after a recursive call that failed repeats the last
attempt with the same outcome and is not modelled.
-/

namespace Purrs.Eliminate

open Purrs Purrs.Classify Purrs.WeightedAvg

/-- GiNaC's `expand` and `collect` with respect to `x(n)`. -/
structure Rewriter where
  expand : Expr → Expr
  collect : Expr → Expr

/-- `-decrement` for the argument of an `x` (src/rr_classifier.cc:182-184); the default value of `Number` is zero. -/
def decOf (n : String) (arg : Expr) : ℤ := -((getDecrement n arg).getD 0).num

/-- `assign_max_decrement_and_coeff` (src/rr_classifier.cc:178-191) on `max_decrement, coefficient`. -/
def assignMax (n : String) (arg pc : Expr) (st : ℤ × Expr) : ℤ × Expr :=
  if st.1 ≤ decOf n arg then (decOf n arg, pc) else st

/-- One iteration of the loop over the factors (src/rr_classifier.cc:201-210): `possibly_coeff`,
`possibly_argument`, `max_dec`, `coeff`. -/
def maxStep (n : String) (factor : Expr) (st : Expr × Expr × ℤ × Expr) : Expr × Expr × ℤ × Expr :=
  let pcpa : Expr × Expr := match factor with
    | .fn .x [arg] => (st.1, arg)
    | factor => (mulE st.1 factor, st.2.1)
  (pcpa.1, pcpa.2, if pcpa.2 = .num 0 then st.2.2 else assignMax n pcpa.2 pcpa.1 st.2.2)

/-- `find_max_decrement_and_coeff_factor` (src/rr_classifier.cc:193-223). -/
def maxFactor (n : String) (e : Expr) (st : ℤ × Expr) : ℤ × Expr :=
  match e with
  | .mul l =>
    let r := l.foldr (maxStep n) (.num 1, .num 0, st)
    (r.2.2.1, if st.1 < r.2.2.1 then r.2.2.2 else addE st.2 r.2.2.2)
  | .fn .x [arg] => assignMax n arg (.num 1) st
  | _ => st

/-- `find_max_decrement_and_coeff` (src/rr_classifier.cc:232-241) with the initial values of its callers
(`INT_MIN` and the default expression, zero). -/
def findMax (n : String) (e : Expr) : ℤ × Expr := (addends e).foldr (maxFactor n) (-2147483648, .num 0)

/-- `eliminate_negative_decrements` (src/rr_classifier.cc:252-297). -/
def elimNegative (n : String) (rw' : Rewriter) (rhs : Expr) : Expr :=
  let m := (findMax n rhs).1
  let r := substitute (.sym n) (shiftN n (-m)) rhs
  let c := substitute (.sym n) (shiftN n (-m)) (findMax n rhs).2
  let r := divE (subE r (.fn .x [shiftN n (-m)])) (negE c)
  rw'.expand (addE (rw'.collect (rw'.expand r)) (xn n))

/-- The loop over the factors of a term (src/rr_classifier.cc:314-320): `found_x_n`, `tmp`. -/
def coeffFactor (n : String) (factor : Expr) (st : Bool × Expr) : Bool × Expr :=
  if factor = xn n then (true, st.2) else (st.1, mulE st.2 factor)

/-- The sum of a list of terms. -/
def sumOf : List Expr → Expr
  | [] => .num 0
  | [e] => e
  | l => .add l

/-- One iteration of the loop of `find_coeff_x_n_and_remainder` (src/rr_classifier.cc:309-332): `coeff_x_n` and the terms
of `remainder`.  `remainder -= term`, for a term of the sum `remainder`, removes the term: GiNaC cancels the two. -/
def coeffTerm (n : String) (term : Expr) (st : Expr × List Expr) : Expr × List Expr :=
  match term with
  | .mul l =>
    let r := l.foldr (coeffFactor n) (false, .num 1)
    if r.1 then (r.2, st.2) else (st.1, term :: st.2)
  | term => if term = xn n then (.num 1, st.2) else (st.1, term :: st.2)

/-- `find_coeff_x_n_and_remainder` (src/rr_classifier.cc:306-333) on the operands of a sum. -/
def findCoeff (n : String) (l : List Expr) : Expr × Expr :=
  let r := l.foldr (coeffTerm n) (.num 0, [])
  (r.1, sumOf r.2)

/-- State of the search of an `x` (src/rr_classifier.cc:376-425): nothing found, found (and going on), found and loop left,
`return 3`. -/
inductive Scan where
  | go | seen | stop | complex
  deriving DecidableEq

/-- `arg == n || has_constant_decrement(arg)`. -/
def okArg (n : String) (arg : Expr) : Bool := arg = .sym n || (getDecrement n arg).isSome

/-- A factor of a product (src/rr_classifier.cc:382-394, 408-420), or a term by itself (397-405, 421-427). -/
def scanFactor (n : String) (f : Expr) (st : Scan) : Scan :=
  match st with
  | .go | .seen =>
    match f with
    | .fn .x [arg] => if okArg n arg then .stop else .complex
    | _ => st
  | st => st

/-- A term of the sum `b` (src/rr_classifier.cc:379-406): leaving the loop over the factors does not leave the loop over
the terms. -/
def scanTerm (n : String) (t : Expr) (st : Scan) : Scan :=
  match st with
  | .go | .seen =>
    match t with
    | .mul l =>
      match l.foldr (scanFactor n) .go with
      | .complex => .complex
      | .go => st
      | _ => .seen
    | t => scanFactor n t st
  | st => st

/-- The search of an `x` in `b` (src/rr_classifier.cc:376-427). -/
def scan (n : String) (b : Expr) : Scan :=
  match b with
  | .add l => l.foldr (scanTerm n) .go
  | .mul l => l.foldr (scanFactor n) .go
  | b => scanFactor n b .go

/-- The value returned by `eliminate_null_decrements`: 0 with the new right-hand side, 1, 2, 3. -/
inductive NullRes where
  | ok (e : Expr)
  | unsolvable
  | indeterminate
  | tooComplex

/-- Case 3 (src/rr_classifier.cc:434-452). -/
def nullCase3 (n : String) (b : Expr) : Expr :=
  let m := (findMax n b).1
  let c := (findMax n b).2
  let r := subE b (mulE c (.fn .x [shiftN n m]))
  divE (mulE (substitute (.sym n) (shiftN n (-m)) r) (.num (-1))) c

/-- `eliminate_null_decrements` (src/rr_classifier.cc:346-464). -/
def elimNull (n : String) (rw' : Rewriter) (rhs : Expr) : NullRes :=
  match rw'.collect rhs with
  | .add l =>
    let ab := findCoeff n l
    if ab.1 = .num 1 then
      match scan n ab.2 with
      | .complex => .tooComplex
      | .go => .unsolvable
      | _ => .ok (nullCase3 n ab.2)
    else .ok (mulE ab.2 (powE (subE (.num 1) ab.1) (.num (-1))))
  | .mul l => if l.any (fun f => f = xn n) then .ok (.num 0) else .ok (.mul l)
  | e => if e = xn n then .indeterminate else .ok e

/-- `classify_and_catch_special_cases` (src/rr_classifier.cc:1615-1682): the right-hand side and the outcome when the
rewriting stops, within a number of steps. -/
def run (n : String) (ms : ℕ) (rw' : Rewriter) : ℕ → Expr → Option (Expr × Res)
  | 0, _ => none
  | fuel + 1, rhs =>
    match classify n ms rhs with
    | .fail .negative => run n ms rw' fuel (elimNegative n rw' rhs)
    | .fail .null =>
      match elimNull n rw' rhs with
      | .ok e => run n ms rw' fuel e
      | .unsolvable => some (rhs, .fail .unsolvable)
      | .indeterminate => some (rhs, .fail .indeterminate)
      | .tooComplex => some (rhs, .fail .tooComplex)
    | r => some (rhs, r)

end Purrs.Eliminate
