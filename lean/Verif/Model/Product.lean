import Verif.Model.EvalRules
import Verif.Model.SumPoly
import Verif.Model.Decomp

/-!
# Closed forms of products (src/compute_prod.cc)

`none` stands for an exception (or for too little fuel, which bounds the depth of the recursion).
-/

namespace Purrs.Product

open Purrs Purrs.EvalRules

/-- The operations of GiNaC and of other files that are used: comparison of canonical forms, the sign of the leading
coefficient in the index (by `compare`), content and primitive part, numerator and denominator, expansion, the coefficients
of a polynomial in the index, and `factorize` (common factor and remainder). -/
structure Ops where
  same : Expr → Expr → Bool
  lcoeffNeg : Expr → Bool
  content : Expr → Expr
  primpart : Expr → Expr
  numer : Expr → Expr
  denom : Expr → Expr
  expand : Expr → Expr
  coeffs : Expr → List Expr
  factorize : Expr → Expr × Expr

/-- The names: `k` the index, `n` is `Recurrence::n`, `h` and `y` are the fresh symbols of src/compute_prod.cc:168, 209, 225 and 258. -/
structure Names where
  k : String
  n : String
  h : String
  y : String

variable (O : Ops) (V : Names) (lower : ℤ)

/-- `factorial` of a number (GiNaC): an exception unless it is a natural number. -/
def factNum (q : ℚ) : Option Expr := if q.den = 1 ∧ 0 ≤ q then some (.num (q.num.toNat.factorial : ℕ)) else none

/-- Division. -/
def quo (a b : Expr) : Expr := mulE a (powE b (.num (-1)))

/-- `remove_extra_terms` (src/compute_prod.cc:53-60). -/
def removeExtra (e complete : Expr) : Expr :=
  quo complete ((List.range (lower - 1).toNat).foldl (fun acc (i : ℕ) => mulE acc (substitute (.sym V.k) (.num ((i : ℚ) + 1)) e)) (.num 1))

/-- The three special polynomials and their products from `1` to `n` (src/compute_prod.cc:77-88). -/
def specialForm (e : Expr) : Option Expr :=
  if O.same e (addE (mulE (.num 2) (.sym V.k)) (.num 1)) then
    some (quo (mulE (.fn .factorial [addE (mulE (.num 2) (.sym V.n)) (.num 1)]) (powE (.num 2) (negE (.sym V.n)))) (.fn .factorial [.sym V.n]))
  else if O.same e (addE (mulE (.num 2) (.sym V.k)) (.num (-1))) then
    some (quo (mulE (.fn .factorial [mulE (.num 2) (.sym V.n)]) (powE (.num 2) (negE (.sym V.n)))) (.fn .factorial [.sym V.n]))
  else if O.same e (addE (addE (.num 2) (mulE (.num (-9)) (.sym V.k))) (mulE (.num 9) (powE (.sym V.k) (.num 2)))) then
    some (quo (mulE (.fn .factorial [mulE (.num 3) (.sym V.n)]) (powE (.num 3) (negE (.sym V.n)))) (.fn .factorial [.sym V.n]))
  else none

/-- `try_special_cases` (src/compute_prod.cc:63-102). -/
def trySpecial (e : Expr) : Option Expr :=
  let e' := if O.lcoeffNeg e then mulE (.num (-1)) e else e
  (specialForm O V e').map fun p =>
    let p := if 1 < lower then
        (if O.lcoeffNeg e && lower % 2 = 0 then mulE (removeExtra V lower e' p) (.num (-1)) else removeExtra V lower e' p)
      else p
    if O.lcoeffNeg e then mulE p (powE (.num (-1)) (.sym V.n)) else p

/-- The symbolic product (src/compute_prod.cc:167-170, 224-227, 257-259); it is evaluated by `prod_eval`. -/
def symbolic (e : Expr) : Option Expr :=
  prodEval V.h (.num lower) (.sym V.n) (substitute (.sym V.k) (.sym V.h) e)

/-- The product of `k + c` (src/compute_prod.cc:124-145). -/
def onShift (c : ℚ) (e : Expr) (den : Bool) : Option Expr :=
  if c.den = 1 ∧ 0 < c then (factNum (lower + c - 1)).map fun d => quo (.fn .factorial [substitute (.sym V.k) (.sym V.n) e]) d
  else if -c < lower then (factNum (lower + c - 1)).map fun d => quo (.fn .factorial [substitute (.sym V.k) (.sym V.n) e]) d
  else if den then none else some (.num 0)

/-- `e` is `k + c`: the test of src/compute_prod.cc:122-123, where `&&` binds more tightly than `||`, so that `c` need not be
an integer if the index is the first summand. -/
def shiftOf (a b : Expr) : Option ℚ :=
  match a, b with
  | .sym s, .num c => if s = V.k then some c else none
  | .num c, .sym s => if s = V.k ∧ c.den = 1 then some c else none
  | _, _ => none

/-- The content (src/compute_prod.cc:147-155); `some none` if nothing was computed. -/
def contentPart (rec : Expr → Bool → Option Expr) (e : Expr) : Option (Option Expr) :=
  if O.content e = .num 1 then some none
  else (rec (O.primpart e) false).bind fun p => (rec (O.content e) false).map fun c => some (mulE p c)

/-- The denominator (src/compute_prod.cc:156-166); its result replaces that of `contentPart`. -/
def denomPart (rec : Expr → Bool → Option Expr) (e : Expr) (r : Option Expr) : Option (Option Expr) :=
  if O.denom e = .num 1 then some r
  else (rec (O.numer e) false).bind fun p => (rec (O.denom e) false).map fun d => some (quo p d)

/-- Sums of three or more summands (src/compute_prod.cc:147-170). -/
def onLong (rec : Expr → Bool → Option Expr) (e : Expr) : Option Expr :=
  ((contentPart O rec e).bind fun r => denomPart O rec e r).bind fun r =>
    match r with
    | some p => some p
    | none => symbolic V lower e

/-- `compute_product_on_add` (src/compute_prod.cc:107-172). -/
def onAdd (rec : Expr → Bool → Option Expr) (e : Expr) (den : Bool) : Option Expr :=
  match (if isPolynomial V.k e then trySpecial O V lower e else none) with
  | some p => some p
  | none =>
    match e with
    | .add [a, b] =>
      match shiftOf V a b with
      | some c => onShift V lower c e den
      | none => symbolic V lower e
    | e => onLong O V lower rec e

/-- The new exponent `sum(b(j), j = 1, ..., n)` (src/compute_prod.cc:207-219). -/
def newExponent (exponent : Expr) : Expr :=
  (expPolyDecomposition V.k (O.expand exponent)).foldr (fun t acc =>
    subE (addE acc (sumPolyTimesExponentials V.y V.n (O.coeffs t.2.1) t.1))
      (substitute (.sym V.y) (.num 0) (substitute (.sym V.k) (.sym V.y) t.2.1))) (.num 0)

/-- `compute_product_on_power` (src/compute_prod.cc:177-229). -/
def onPower (rec : Expr → Bool → Option Expr) (base exponent : Expr) : Option Expr :=
  if has (.sym V.k) base then
    match exponent with
    | .num q => (rec base (!(q.den = 1 && 0 < q))).map fun p => powE p (.num q)
    | _ => symbolic V lower (.pow base exponent)
  else if (expPolyDecomposition V.k (O.expand exponent)).any fun t => t.2.1 ≠ .num 0 then
    some (powE base (newExponent O V exponent))
  else symbolic V lower (.pow base exponent)

/-- One step of `comp_prod` (src/compute_prod.cc:231-262). -/
def step (rec : Expr → Bool → Option Expr) (e : Expr) (den : Bool) : Option Expr :=
  if !has (.sym V.k) e then some (powE e (addE (subE (.sym V.n) (.num lower)) (.num 1)))
  else if e = .sym V.k then
    if 0 < lower then (factNum (lower - 1)).map fun d => quo (.fn .factorial [.sym V.n]) d
    else if den then none else some (.num 0)
  else match e with
    | .add l => onAdd O V lower rec (.add l) den
    | .pow b x => onPower O V lower rec b x
    | .mul l => l.foldr (fun a acc => acc.bind fun p => (rec a false).map fun q => mulE p q) (some (.num 1))
    | e => symbolic V lower e

/-- `comp_prod` (src/compute_prod.cc:231-262). -/
def compProd : ℕ → Expr → Bool → Option Expr
  | 0, _, _ => none
  | fuel + 1, e, den => step O V lower (compProd fuel) e den

/-- `compute_product` (src/compute_prod.cc:306-317). -/
def computeProduct (fuel : ℕ) (e : Expr) : Option Expr :=
  (compProd O V lower fuel (O.factorize (O.expand e)).1 false).bind fun p =>
    (compProd O V lower fuel (O.factorize (O.expand e)).2 false).map fun q => mulE p q

end Purrs.Product
