import Verif.Model.Expr
import Verif.Model.IntUtil
import Mathlib.Data.Rat.Floor

/-!
# Radicals: `src/simplify.cc:507-783`

`to_std_form`, `reduce_to_standard_form`, `red_prod` and `reduce_product`: the rules that
rewrite numeric powers `r^{1/k}` and products of them.

Simplifications:
* the imaginary unit `Number::I()` (a GiNaC number) is the constant `I`;
* `to_int` does not overflow (root indices and exponents are unbounded here);
* arguments are rational (the branch `!r.is_real()`, lines 603-606, returns the power
  unchanged and is not reached).
-/

namespace Purrs.SimplifyRoot

open Purrs

/-- One iteration of the loop of `to_std_form` (src/simplify.cc:533-543): the pair
`(quotient, remainder)` for the exponent `e`. -/
def stdStep (k : ℤ) (e : ℕ) : ℕ × ℕ :=
  if k < 0 ∧ e % k.natAbs ≠ 0 then (e / k.natAbs + 1, k.natAbs - e % k.natAbs)
  else (e / k.natAbs, e % k.natAbs)

/-- `to_std_form` (src/simplify.cc:525-545): the returned `m` and the updated
exponents. -/
def toStdForm (k : ℤ) (l : List (ℕ × ℕ)) : ℕ × List (ℕ × ℕ) :=
  ((l.map fun p => p.1 ^ (stdStep k p.2).1).prod, l.map fun p => (p.1, (stdStep k p.2).2))

/-- The loops computing `gc` (src/simplify.cc:642-646) on the concatenation of the two
exponent vectors. -/
def commonIndex (k : ℕ) (l : List (ℕ × ℕ)) : ℕ :=
  l.foldl (fun gc p => if 1 < gc then Nat.gcd gc p.2 else gc) k

/-- The product `irr_part` (src/simplify.cc:658-662), after the division of the
exponents by `gc` (lines 648-654). -/
def irrPart (gc : ℕ) (l : List (ℕ × ℕ)) : ℕ := (l.map fun p => p.1 ^ (p.2 / gc)).prod

/-- The variable `sign` (src/simplify.cc:608 and 614-615). -/
def signE (k : ℤ) (r : ℚ) : Expr :=
  if 0 < r then .num 1
  else if k % 2 = 0 then (if 0 < k then .const "I" else negE (.const "I"))
  else .num (-1)

/-- The numerator after the swap (src/simplify.cc:609-620). -/
def topOf (k : ℤ) (r : ℚ) : ℤ := if k < 0 then r.den else r.num

/-- The denominator after the swap (src/simplify.cc:609-620). -/
def botOf (k : ℤ) (r : ℚ) : ℤ := if k < 0 then r.num else r.den

/-- Lines 625-664 of `reduce_to_standard_form` (src/simplify.cc) for the positive index
`k`, the numerator `num` and the denominator `den`. -/
def reduceTail (sign : Expr) (k : ℕ) (num den : ℤ) : Expr :=
  let n := toStdForm k (partialFactor num)
  let d := toStdForm (-(k : ℤ)) (partialFactor den)
  let gc := commonIndex k (n.2 ++ d.2)
  let irr := irrPart gc (n.2 ++ d.2)
  let q := mulE sign (.num ((n.1 : ℚ) / (d.1 : ℚ)))
  if 1 < irr then mulE q (powE (.num irr) (.num (1 / ((k / gc : ℕ) : ℚ)))) else q

/-- `reduce_to_standard_form` (src/simplify.cc:593-665); `r = 0` with `k < 0` is
excluded by an assertion. -/
def reduceToStd (k : ℤ) (r : ℚ) : Expr :=
  if 0 < k ∧ r = 0 then .num 0
  else if k.natAbs = 1 then
    mulE (signE k r) (.num ((topOf k r : ℚ) * ((botOf k r : ℚ))⁻¹))
  else reduceTail (signE k r) k.natAbs (topOf k r) (botOf k r)

/-- Denominator of an exponent carrying its sign (src/simplify.cc:691-704). -/
def signedDen (e : ℚ) : ℤ := if 0 < e.num then (e.den : ℤ) else -(e.den : ℤ)

/-- `red_prod` (src/simplify.cc:683-713). -/
def redProd (b1 e1 b2 e2 : ℚ) : Expr :=
  let d1 := signedDen e1
  let d2 := signedDen e2
  let c1 := b1 ^ e1.num.natAbs
  let c2 := b2 ^ e2.num.natAbs
  let g : ℤ := Int.gcd d1 d2
  reduceToStd (d1 * d2 / g) (c1 ^ (d2 / g) * c2 ^ (d1 / g))

/-- The local variables of `reduce_product` (src/simplify.cc:731-734). -/
structure St where
  toReduce : Expr
  noReduce : Expr
  base1 : ℚ
  exp1 : ℚ

/-- One operand of the product returned by `red_prod`
(src/simplify.cc:748-759). -/
def takeFactor (f : Expr) (s : St) : St :=
  match f with
  | .pow (.num b) (.num e) =>
      { s with base1 := b, exp1 := e, toReduce := powE (.num b) (.num e) }
  | f => { s with noReduce := mulE s.noReduce f }

/-- The assignments after a call of `red_prod` (src/simplify.cc:745-773).  `none`: the
result is not a rational number (or a power or multiple of such), so that `base_1`
cannot be represented in the model. -/
def absorb (t : Expr) (s : St) : Option St :=
  match t with
  | .mul l => some (l.foldr takeFactor s)
  | .pow (.num b) (.num e) =>
      some { s with base1 := b, exp1 := e, toReduce := powE (.num b) (.num e) }
  | .num q => some { s with base1 := q, exp1 := 1, toReduce := .num q }
  | _ => none

/-- One iteration of the loop of `reduce_product` (src/simplify.cc:735-781). -/
def prodStep (f : Expr) (s : St) : Option St :=
  match f with
  | .pow (.num b) (.num e) => absorb (redProd s.base1 s.exp1 b e) s
  | f => some { s with noReduce := mulE s.noReduce f }

/-- The loop of `reduce_product` (src/simplify.cc:735-781), from the last operand to the
first. -/
def prodLoop : List Expr → Option St
  | [] => some ⟨.num 1, .num 1, 1, 1⟩
  | f :: l => (prodLoop l).bind (prodStep f)

/-- `reduce_product` (src/simplify.cc:729-783). -/
def reduceProduct (l : List Expr) : Option Expr :=
  (prodLoop l).map fun s => mulE s.toReduce s.noReduce

end Purrs.SimplifyRoot
