import Verif.Model.IntUtil
import Verif.Model.Expr

/-!
# Common factors (src/factorize.cc) and bases and exponents (src/util.cc:175-234)

Parallel vectors `bases`, `exponents` are lists of pairs. The common factor of a sum is kept as the list of its bases and
exponents: in the code it is a product, which `split_bases_exponents` splits again before every use (src/factorize.cc:47);
that the canonical product is split into the powers it was built from is a simplification of the model.
-/

namespace Purrs.Factorize

open Purrs

/-- The pairs of an integer: those of `partial_factor`, with `-1` for the sign and `1` for the unit
(src/util.cc:184-205; `acc` are the vectors so far). -/
def splitInt (z : ℤ) (acc : List (Expr × Expr)) : List (Expr × Expr) :=
  (partialFactor z).map (fun p => (Expr.num p.1, Expr.num p.2)) ++
    (acc ++ (if z < 0 then [(.num (-1), .num 1)] else []) ++ (if z = 1 then [(.num 1, .num 1)] else []))

/-- `split_bases_exponents_factor` (src/util.cc:178-217). -/
def splitFactor (e : Expr) (acc : List (Expr × Expr)) : List (Expr × Expr) :=
  match e with
  | .num q => if q.den = 1 then splitInt q.num acc else acc ++ [(.num q, .num 1)]
  | .pow b x => acc ++ [(b, x)]
  | e => acc ++ [(e, .num 1)]

/-- `split_bases_exponents` (src/util.cc:225-234). -/
def splitBases (e : Expr) : List (Expr × Expr) :=
  match e with
  | .mul l => l.foldr (fun a acc => splitFactor a acc) []
  | e => splitFactor e []

/-- The comparison of two exponents (src/factorize.cc:105-121): the smaller of two positive integers, or the exponent if both
are equal. -/
def meet (m y : Expr) : Option Expr :=
  match m, y with
  | .num a, .num c =>
      if isPosInt (.num a) && isPosInt (.num c) then some (.num (if c > a then a else c))
      else if a = c then some m else none
  | m, y => if m = y then some m else none

/-- The search for a base in one summand (src/factorize.cc:103-123). -/
def findExp (b m : Expr) (l : List (Expr × Expr)) : Option Expr :=
  l.reverse.findSome? fun p => if p.1 = b then meet m p.2 else none

/-- The loop over all summands (src/factorize.cc:92-130): the exponent with which `b` is common, if it is. -/
def inAll (terms : List Expr) (b x : Expr) : Option Expr :=
  terms.foldr (fun t acc => acc.bind fun m => findExp b m (splitBases t)) (some x)

/-- The factor left over if the base is already in the common factor (src/factorize.cc:53-64). -/
def leftOver (b x y : Expr) : Expr :=
  match x, y with
  | .num a, .num c =>
      if isPosInt (.num a) && isPosInt (.num c) then
        (if a > c then powE b (.num (a - c)) else powE b (.num (c - a)))
      else if a = c then .num 1 else powE b (subE x y)
  | x, y => if x = y then .num 1 else powE b (subE x y)

/-- `assign_common_factor_and_rem` (src/factorize.cc:39-73). -/
def assign (b x m : Expr) (st : List (Expr × Expr) × Expr) : List (Expr × Expr) × Expr :=
  match st.1.reverse.find? fun p => p.1 = b with
  | some p => (st.1, mulE st.2 (leftOver b x p.2))
  | none => (st.1 ++ [(b, m)], if m = x then st.2 else mulE st.2 (powE b (subE x m)))

/-- `in_all_factors` (src/factorize.cc:85-140). -/
def inAllFactors (terms : List Expr) (p : Expr × Expr) (st : List (Expr × Expr) × Expr) : List (Expr × Expr) × Expr :=
  match inAll terms p.1 p.2 with
  | some m => assign p.1 p.2 m st
  | none => (st.1, mulE st.2 (powE p.1 p.2))

/-- `collect_common_factor` (src/factorize.cc:150-165); the result is the common factor and `rem_summand`. -/
def collect (terms : List Expr) (t : Expr) (common : List (Expr × Expr)) : List (Expr × Expr) × Expr :=
  (splitBases t).foldr (fun p st => inAllFactors terms p st) (common, .num 1)

/-- The loop over the summands (src/factorize.cc:187-194): the common factor and the remainder. -/
def factorSum (terms : List Expr) : List (Expr × Expr) × Expr :=
  terms.foldr (fun t st => ((collect terms t st.1).1, addE st.2 (collect terms t st.1).2)) ([], .num 0)

/-- The product of the powers. -/
def prodOf (l : List (Expr × Expr)) : Expr := l.foldl (fun acc p => mulE acc (powE p.1 p.2)) (.num 1)

/-- The operations of GiNaC: expansion, the test for polynomials, square-free factorization, numerator and denominator. -/
structure Ops where
  expand : Expr → Expr
  isPoly : Expr → Bool
  sqrfree : Expr → Expr
  numer : Expr → Expr
  denom : Expr → Expr

variable (O : Ops)

/-- `e_factorized` (src/factorize.cc:180-182). -/
def prepared (e : Expr) : Expr := if O.isPoly (O.expand e) then O.sqrfree (O.expand e) else O.expand e

/-- One level of `factorize_no_ratio_ex` (src/factorize.cc:180-229). -/
def noRatioStep (rec : Expr → Option (Expr × Expr)) (e : Expr) : Option (Expr × Expr) :=
  match prepared O e with
  | .add l => some (prodOf (factorSum l).1, (factorSum l).2)
  | .pow (.add l) (.num k) =>
      if isPosInt (.num k) then
        (rec (.add l)).map fun r => if k = 1 then r else (powE r.1 (.num k), powE r.2 (.num k))
      else some (.num 1, .pow (.add l) (.num k))
  | .pow b x => some (.num 1, .pow b x)
  | .mul l => l.foldr (fun a acc => acc.bind fun r => (rec a).map fun s => (mulE r.1 s.1, mulE r.2 s.2)) (some (.num 1, .num 1))
  | _ => some (.num 1, e)

/-- `factorize_no_ratio_ex` (src/factorize.cc:174-234): common factor and remainder; `none` if there is too little fuel for the
recursion. -/
def noRatio : ℕ → Expr → Option (Expr × Expr)
  | 0, _ => none
  | fuel + 1, e => noRatioStep O (noRatio fuel) e

/-- `is_a_number`. -/
def isNumE : Expr → Bool
  | .num _ => true
  | _ => false

/-- Division. -/
def quo (a b : Expr) : Expr := mulE a (powE b (.num (-1)))

/-- `factorize` (src/factorize.cc:242-263). -/
def factorize (fuel : ℕ) (e : Expr) : Option (Expr × Expr) :=
  (noRatio O fuel (O.numer e)).bind fun n => (noRatio O fuel (O.denom e)).map fun d =>
    if isNumE d.1 && isNumE d.2 then (quo n.1 (mulE d.1 d.2), n.2) else (quo n.1 d.1, quo n.2 d.2)

end Purrs.Factorize
