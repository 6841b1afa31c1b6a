import Verif.Model.Factorize

/-!
# Numerator and denominator (src/numerator_denominator.cc)

Denominators are products that GiNaC keeps in canonical form: one numeric coefficient, and powers in which numeric exponents of
the same base are added.
-/

namespace Purrs.NumDen

open Purrs Purrs.Factorize

/-- A product in canonical form: the integer coefficient and the other powers. -/
structure Den where
  coef : ℕ
  rest : List (Expr × Expr)
deriving DecidableEq

/-- The product `1`. -/
def Den.one : Den := ⟨1, []⟩

/-- The two numeric exponents of the same base are added (GiNaC). -/
def addExp (b : Expr) (a : ℚ) : List (Expr × Expr) → Option (List (Expr × Expr))
  | [] => none
  | p :: l =>
    match p.2 with
    | .num c => if p.1 = b then some (if c + a = 0 then l else (b, .num (c + a)) :: l) else (addExp b a l).map fun l => p :: l
    | _ => (addExp b a l).map fun l => p :: l

/-- Multiplication of a product by a power (GiNaC's canonical form): powers of natural numbers go into the coefficient. -/
def Den.mulPow (d : Den) (b x : Expr) : Den :=
  match b, x with
  | .num q, .num a =>
      if q = 1 ∨ a = 0 then d
      else if q.den = 1 ∧ 0 < q ∧ isPosInt (.num a) then ⟨d.coef * q.num.toNat ^ a.num.toNat, d.rest⟩
      else ⟨d.coef, (addExp (.num q) a d.rest).getD (d.rest ++ [(.num q, .num a)])⟩
  | b, .num a => if a = 0 then d else ⟨d.coef, (addExp b a d.rest).getD (d.rest ++ [(b, .num a)])⟩
  | b, x => if b = .num 1 then d else ⟨d.coef, d.rest ++ [(b, x)]⟩

/-- `split_bases_exponents` of the product (src/util.cc:225-234): the coefficient is the last operand, and is absent if it is `1`
and there are other factors. -/
def Den.split (d : Den) : List (Expr × Expr) :=
  if d.coef = 1 ∧ d.rest ≠ [] then d.rest.reverse else splitInt d.coef [] ++ d.rest.reverse

/-- The product as an expression. -/
def Den.expr (d : Den) : Expr := mulE (.num d.coef) (prodOf d.rest)

/-- The product of a list of powers, multiplied from the last one to the first. -/
def denOf (l : List (Expr × Expr)) : Den := l.foldr (fun p d => d.mulPow p.1 p.2) .one

/-- `find_denominator_single_factor` (src/numerator_denominator.cc:52-77): numerator and denominator so far, and after the factor. -/
def findFactor (e : Expr) (st : Expr × Den) : Expr × Den :=
  match e with
  | .pow b (.num q) => if q ≤ 0 then (st.1, st.2.mulPow b (.num (-q))) else (mulE st.1 e, st.2)
  | .num q => (mulE st.1 (.num q.num), st.2.mulPow (.num q.den) (.num 1))
  | e => (mulE st.1 e, st.2)

/-- `find_denominator_single_term` (src/numerator_denominator.cc:86-99). -/
def findTerm (e : Expr) (st : Expr × Den) : Expr × Den :=
  match e with
  | .mul l => l.foldr (fun a st => findFactor a st) st
  | e => findFactor e st

/-- The larger of two exponents, if both are positive integers (src/numerator_denominator.cc:127-134). -/
def larger (x y : Expr) : Option Expr :=
  match x, y with
  | .num a, .num c => if isPosInt (.num a) && isPosInt (.num c) then some (if a ≥ c then .num a else .num c) else none
  | _, _ => none

/-- The search for a base in the second product (src/numerator_denominator.cc:122-148), from the last entry on; `l` is reversed.
The exponent of the entry is replaced by `0`. The result is the powers to multiply (the last one first) and the new list. -/
def matchBase (b x : Expr) : List (Expr × Expr) → Option (List (Expr × Expr) × List (Expr × Expr))
  | [] => none
  | p :: l =>
    if p.1 = b then
      some ((match larger x p.2 with
        | some z => [(b, z)]
        | none => [(b, p.2), (b, x)]), (p.1, .num 0) :: l)
    else (matchBase b x l).map fun r => (r.1, p :: r.2)

/-- One factor of the first product (src/numerator_denominator.cc:115-156); the state is the powers so far (the last one first) and
the second product (reversed). -/
def takeStep (p : Expr × Expr) (st : List (Expr × Expr) × List (Expr × Expr)) : List (Expr × Expr) × List (Expr × Expr) :=
  if isPosInt p.2 then
    match matchBase p.1 p.2 st.2 with
    | some r => (r.1 ++ st.1, r.2)
    | none => (p :: st.1, st.2)
  else (p :: st.1, st.2)

/-- The powers of the common denominator (src/numerator_denominator.cc:108-168), the last one first. -/
def takeList (l1 l2 : List (Expr × Expr)) : List (Expr × Expr) :=
  let r := l1.foldr (fun p st => takeStep p st) ([], l2.reverse)
  r.2.foldl (fun acc p => if p.2 = .num 0 then acc else p :: acc) r.1

/-- `take_common_and_not_factors` (src/numerator_denominator.cc:184-194). -/
def takeCommon (d f : Den) : Den := denOf (takeList d.split f.split)

/-- `d_exponent` in the last case of src/numerator_denominator.cc:233-237: the exponent if it is a number, and otherwise the
number that was not assigned, which is `0`. -/
def assigned : Expr → Expr
  | .num a => .num a
  | _ => .num 0

/-- One factor of the common denominator (src/numerator_denominator.cc:214-244): what is left of it for a numerator. -/
def numFactor (f : List (Expr × Expr)) (p : Expr × Expr) : Expr :=
  match f.reverse.find? fun q => q.1 = p.1 with
  | some q =>
      if p.2 = q.2 then .num 1
      else match p.2, q.2 with
        | .num a, .num c =>
            if isPosInt (.num a) && isPosInt (.num c) then powE p.1 (.num (a - c)) else powE p.1 (.num a)
        | x, _ => powE p.1 (assigned x)
  | none => powE p.1 p.2

/-- `find_factor_for_numerator` (src/numerator_denominator.cc:204-246). -/
def factorFor (d f : Den) : Expr := d.split.foldr (fun p acc => mulE acc (numFactor f.split p)) (.num 1)

/-- `find_numerator` (src/numerator_denominator.cc:257-275). -/
def findNumerator (l : List (Expr × Den)) (d : Den) : Expr :=
  l.foldr (fun p acc => addE acc (mulE p.1 (if d = p.2 then .num 1 else factorFor d p.2))) (.num 0)

/-- The operations of GiNaC: the quotient of numerator and denominator, and the power of two such quotients, in canonical form. -/
structure Ops where
  quot : Expr → Den → Expr
  power : Expr → Den → Expr → Den → Expr

variable (O : Ops)

/-- One factor of a product (src/numerator_denominator.cc:313-333). -/
def mulStep (rec : Expr → Option (Expr × Den)) (a : Expr) (st : Expr × Den) : Option (Expr × Den) :=
  match a with
  | .pow b x => (rec (.pow b x)).map fun r => findTerm (O.quot r.1 r.2) st
  | a => some (findTerm a st)

/-- The numerators and denominators of the summands. -/
def mapRec (rec : Expr → Option (Expr × Den)) : List Expr → Option (List (Expr × Den))
  | [] => some []
  | a :: l => (rec a).bind fun r => (mapRec rec l).map fun m => r :: m

/-- The common denominator of the summands (src/numerator_denominator.cc:293-297). -/
def commonDen (l : List (Expr × Den)) : Den := l.foldr (fun p d => takeCommon d p.2) .one

/-- One level of `numerator_denominator_term` (src/numerator_denominator.cc:280-341). -/
def ndStep (rec : Expr → Option (Expr × Den)) (e : Expr) : Option (Expr × Den) :=
  match e with
  | .add l => (mapRec rec l).map fun rs => (findNumerator rs (commonDen rs), commonDen rs)
  | .pow b x => (rec b).bind fun rb => (rec x).map fun rx => findTerm (O.power rb.1 rb.2 rx.1 rx.2) (.num 1, .one)
  | .mul l => l.foldr (fun a acc => acc.bind fun st => mulStep O rec a st) (some (.num 1, .one))
  | e => some (findTerm e (.num 1, .one))

/-- `numerator_denominator_term` and `numerator_denominator_purrs` (src/numerator_denominator.cc:280-341, 354-380; the case of a sum
is the same in both); `none` if there is too little fuel for the recursion. -/
def numDen : ℕ → Expr → Option (Expr × Den)
  | 0, _ => none
  | fuel + 1, e => ndStep O (numDen fuel) e

/-- `numerator` and `denominator` (src/numerator_denominator.cc:387-412). -/
def numeratorDenominator (F : Factorize.Ops) (fuel : ℕ) (e : Expr) : Option (Expr × Expr) :=
  (numDen O fuel (distribute e)).bind fun r => (noRatio F fuel r.1).map fun s => (mulE s.1 s.2, r.2.expr)

/-- `transform_in_single_fraction` (src/numerator_denominator.cc:421-431), with the numerator and denominator of GiNaC. -/
def singleFraction (F : Factorize.Ops) (fuel : ℕ) (e : Expr) : Option Expr :=
  (noRatio F fuel (F.numer (distribute e))).map fun s => quo (mulE s.1 s.2) (F.denom (distribute e))

end Purrs.NumDen
