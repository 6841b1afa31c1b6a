import Verif.Model.WeightedAvg
import Mathlib.Data.Rat.Floor

/-!
# Model of the tests on the inhomogeneous part of functional equations
(src/functional_equation.cc, and `find_domain_in_N`, src/util.cc:440-573)

Simplifications: `numerator().expand()`, `denominator().expand()`, the search of the roots
(`convert_to_integer_polynomial` and `find_roots`, modelled in `Verif.Model.AlgEq`) and `simplify_ex_for_input` are
parameters; the automatic evaluation of `log` is not modelled; `Number z`, always an integer, is a `ℤ`; the loops
`while (z < r) ++z` are written in closed form; the depth of the recursion is bounded by a parameter.
-/

namespace Purrs.Functional

open Purrs Purrs.WeightedAvg

/-- A number that is not positive (src/functional_equation.cc:106-109, 143-146). -/
def nonPosNum : Expr → Bool
  | .num q => q ≤ 0
  | _ => false

/-- `is_non_decreasing_poly` (src/functional_equation.cc:78-115). -/
def isNonDecPoly (x : String) (e : Expr) : Bool :=
  match e with
  | .num _ => true
  | .const _ => true
  | .sym s => s = x
  | .pow b ex => !has (.sym x) (.pow b ex) || (isNonDecPoly x b && isPosInt ex)
  | .fn f l => l.length = 1 && !has (.sym x) (.fn f l)
  | .binder _ _ _ _ _ => false
  | .mul l => (l.map fun a => isNonDecPoly x a).all id
  | .add l => (l.map fun a => !nonPosNum a && isNonDecPoly x a).all id
termination_by e

/-- The cases of `is_non_decreasing_no_poly` for powers (src/functional_equation.cc:150-169). -/
def nonDecPower (x : String) (b ex : Expr) : Bool :=
  match ex with
  | .num k => (b = .sym x && 0 < k) || (isPolynomial x b && isPosInt (.num k))
  | ex => isPolynomial x b && isPolynomial x ex && isNonDecPoly x b && isNonDecPoly x ex

/-- `is_non_decreasing_no_poly` (src/functional_equation.cc:128-171); `x` is `Recurrence::n`. -/
def isNonDecNoPoly (x : String) (e : Expr) : Bool :=
  if isPolynomial x e then isNonDecPoly x e
  else
    match e with
    | .mul l => (l.map fun a => isNonDecNoPoly x a).all id
    | .add l => (l.map fun a => !nonPosNum a && isNonDecNoPoly x a).all id
    | .pow b ex => nonDecPower x b ex
    | .fn .log _ => true
    | _ => false
termination_by e

/-- A sum or a product of two operands, read in both orders. -/
def pairs : List Expr → List (Expr × Expr)
  | [a, b] => [(a, b), (b, a)]
  | _ => []

/-- `a n`, with `a` a positive integer (src/util.cc:455-464, 472-479). -/
def posMultiple (n : String) : Expr → Bool
  | .mul l => (pairs l).any fun p => p.1 = .sym n && isPosInt p.2
  | _ => false

/-- An integer number. -/
def isIntNum : Expr → Bool
  | .num q => q.den = 1
  | _ => false

/-- `ok_argument_factorial` (src/util.cc:446-485). -/
def okFactorialArg (n : String) (e : Expr) : Bool :=
  match e with
  | .add l => (pairs l).any fun p => (posMultiple n p.1 || p.1 = .sym n) && isIntNum p.2
  | .mul l => posMultiple n (.mul l)
  | e => e = .sym n

/-- What comes from other parts of the program: `numerator().expand()`, `denominator().expand()`, and the roots of a
polynomial found by `find_roots` that are real numbers, `none` if it fails. -/
structure Env where
  num : Expr → Expr
  den : Expr → Expr
  roots : Expr → Option (List ℚ)

/-- `while (z < r) ++z` (src/util.cc:515-516). -/
def raise (z : ℤ) (r : ℚ) : ℤ := max z ⌈r⌉

/-- The loop over the operands (src/util.cc:522-527). -/
def loopDom (rec : Expr → ℤ → Bool × ℤ) (l : List Expr) (z : ℤ) : Bool × ℤ :=
  l.foldr (fun a acc => if acc.1 then rec a acc.2 else acc) (true, z)

/-- The body of `find_domain_in_N` (src/util.cc:569-573). -/
def bothDom (E : Env) (rec : Expr → ℤ → Bool × ℤ) (e : Expr) (z : ℤ) : Bool × ℤ :=
  if (rec (E.num e) z).1 then rec (E.den e) (rec (E.num e) z).2 else rec (E.num e) z

/-- A logarithm (src/util.cc:529-540). -/
def logDom (x : String) (rec : Expr → ℤ → Bool × ℤ) (a : Expr) (z : ℤ) : Bool × ℤ :=
  if isPolynomial x a then (true, (rec (subE a (.num 1)) z).2)
  else
    match a with
    | .fn .log _ => (true, max (rec a z).2 3)
    | _ => (false, z)

/-- A power (src/util.cc:548-558). -/
def powDom (E : Env) (x : String) (rec : Expr → ℤ → Bool × ℤ) (b ex : Expr) (z : ℤ) : Bool × ℤ :=
  match b with
  | .num q =>
    if 0 < q ∧ has (.sym x) ex then (true, z)
    else bothDom E rec (mulE ex (.fn .log [.num q])) z
  | b => bothDom E rec (mulE ex (.fn .log [b])) z

/-- A polynomial (src/util.cc:503-519). -/
def polyDom (E : Env) (x : String) (e : Expr) (z : ℤ) : ℤ :=
  if isRatPolynomial x e then
    match E.roots e with
    | some rs => rs.foldr (fun r z => raise z r) z
    | none => z
  else z

/-- An expression that is not a polynomial (src/util.cc:520-559). -/
def otherDom (E : Env) (x : String) (rec : Expr → ℤ → Bool × ℤ) (e : Expr) (z : ℤ) : Bool × ℤ :=
  match e with
  | .add l => loopDom rec l z
  | .mul l => loopDom rec l z
  | .fn .log [a] => logDom x rec a z
  | .fn .factorial [a] => if okFactorialArg x a then rec a z else (false, z)
  | .pow b ex => powDom E x rec b ex z
  | _ => (false, z)

/-- `find_domain_in_N_on_expanded_ex` (src/util.cc:499-565): the answer and the new `z`. -/
def exDom (E : Env) (x : String) : ℕ → Expr → ℤ → Bool × ℤ
  | 0 => fun _ z => (false, z)
  | fuel + 1 => fun e z =>
    if has (.sym x) e then
      if isPolynomial x e then (true, polyDom E x e z) else otherDom E x (exDom E x fuel) e z
    else (true, z)

/-- `find_domain_in_N` (src/util.cc:569-573). -/
def findDomain (E : Env) (x : String) (fuel : ℕ) (e : Expr) (z : ℤ) : Bool × ℤ := bothDom E (exDom E x fuel) e z

/-- `is_non_negative` (src/functional_equation.cc:49-59). -/
def isNonNegative (E : Env) (x : String) (fuel : ℕ) (e : Expr) (z : ℤ) : Bool × ℤ :=
  let r := findDomain E x fuel e z
  if r.1 then (true, if r.2 = -1 then 0 else r.2) else r

/-- `is_non_negative_non_decreasing` (src/functional_equation.cc:179-216) with `first_time` false. -/
def nnndSecond (E : Env) (x : String) (fuel : ℕ) (base : ℚ) (e : Expr) (z : ℤ) : Bool × ℤ :=
  if ¬ 0 < base then (false, z)
  else
    let r := isNonNegative E x fuel e z
    if r.1 then (isNonDecPoly x e, r.2) else r

/-- `is_non_negative_non_decreasing` (src/functional_equation.cc:179-216) with `first_time` true; `simp` is
`simplify_ex_for_input`; the answer and the new `condition`. -/
def nnnd (E : Env) (simp : Expr → Expr) (x : String) (fuel : ℕ) (base : ℚ) (e : Expr) (poly : Bool) (z : ℤ) : Bool × ℤ :=
  if ¬ 0 < base then (false, z)
  else
    let r := isNonNegative E x fuel e z
    if poly then
      if r.1 then
        if isNonDecPoly x e then r
        else nnndSecond E x fuel base (simp (subE (substitute (.sym x) (addE (.sym x) (.num 1)) e) e)) r.2
      else r
    else if r.1 then (isNonDecNoPoly x e, r.2) else r

end Purrs.Functional
