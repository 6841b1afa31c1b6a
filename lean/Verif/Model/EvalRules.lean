import Verif.Model.Expr
import Mathlib.Data.Rat.Floor
import Mathlib.Data.Nat.Factorial.Basic

/-!
# The automatic evaluation rules of the symbolic functions (src/Expr.cc:94-650)

GiNaC calls the `*_eval` functions whenever a `floor`, `mod`, `binom`, `sum`, `prod`, `max` or `min` is constructed.
`none` stands for an exception; `hold()` keeps the application as it is.

Simplifications: numbers are rational; the index of a sum or product is a symbol, given by its name; `subs(index == j)` is
`substitute`.
-/

namespace Purrs.EvalRules

open Purrs

/-- `floor_eval` (src/Expr.cc:96-112); `cln::floor1` of a rational number is the integer division of its numerator by its
denominator, rounded down. -/
def floorEval : Expr → Expr
  | .num q => if q.den = 1 then .num q else .num (q.num.fdiv q.den : ℤ)
  | e => .fn .floor [e]

/-- GiNaC's `mod(numeric, numeric)`, called in src/Expr.cc:190, 197, 202: for two integers the remainder with the sign of the
second one (an exception if it is zero); `0` if one of them is not an integer. -/
def modNum (a b : ℚ) : Option ℚ :=
  if a.den = 1 ∧ b.den = 1 then
    if b = 0 then none else some (a.num.fmod b.num : ℤ)
  else some 0

/-- One of the two symmetric cases of `mod_eval` (src/Expr.cc:194-204): `mod(s + h, k)` with `h` a number. -/
def modShift (s : String) (h k : ℚ) (whole : Expr) : Option Expr :=
  match modNum h k with
  | none => none
  | some r => if r = 0 then some (.fn .mod [.sym s, .num k]) else some (.fn .mod [whole, .num k])

/-- `mod_eval` (src/Expr.cc:187-208). -/
def modEval (x y : Expr) : Option Expr :=
  match x, y with
  | .num a, .num b => (modNum a b).map .num
  | .add [.sym s, .num h], .num k =>
      if k.den = 1 then modShift s h k (.add [.sym s, .num h]) else some (.fn .mod [.add [.sym s, .num h], .num k])
  | .add [.num h, .sym s], .num k =>
      if k.den = 1 then modShift s h k (.add [.num h, .sym s]) else some (.fn .mod [.add [.num h, .sym s], .num k])
  | x, y => some (.fn .mod [x, y])

/-- The loops `for (numeric j = lo; j <= up; ++j)` of src/Expr.cc:353-354, 457-458, 499-500 and 502-503. -/
def loopUp {α : Type} (f : α → ℚ → α) (up : ℚ) (lo : ℚ) (acc : α) : α :=
  if lo ≤ up then loopUp f up (lo + 1) (f acc lo) else acc
termination_by (⌊up - lo⌋ + 1).toNat
decreasing_by
  rename_i h
  have h1 : up - (lo + 1) = up - lo - 1 := by ring
  rw [h1, Int.floor_sub_one]
  have h2 : 0 ≤ ⌊up - lo⌋ := Int.floor_nonneg.mpr (by linarith)
  omega

/-- `get_out_factors_from_argument` (src/Expr.cc:285-300): the factors with and without the index, both multiplied to `1`. -/
def outFactors (x : String) (e : Expr) : Expr × Expr :=
  match e with
  | .mul l => l.foldr (fun a (p : Expr × Expr) => if has (.sym x) a then (mulE p.1 a, p.2) else (p.1, mulE p.2 a)) (.num 1, .num 1)
  | e => if has (.sym x) e then (mulE (.num 1) e, .num 1) else (.num 1, mulE (.num 1) e)

/-- `sum_eval` (src/Expr.cc:333-370). -/
def sumEval (i : String) (lower upper summand : Expr) : Option Expr :=
  match lower with
  | .num lo =>
      if lo.den = 1 then
        match upper with
        | .num up =>
            if up.den = 1 then
              if up < lo then some (.num 0)
              else if lo = up then some (substitute (.sym i) (.num lo) summand)
              else some (loopUp (fun s j => addE s (substitute (.sym i) (.num j) summand)) up lo (.num 0))
            else none
        | _ =>
            if summand = .num 1 then some (addE (subE upper (.num lo)) (.num 1))
            else if (outFactors i summand).1 = .num 1 then
              some (mulE (outFactors i summand).2 (addE (subE upper (.num lo)) (.num 1)))
            else some (mulE (outFactors i summand).2 (.binder .sum (.sym i) (.num lo) upper (outFactors i summand).1))
      else none
  | _ => none

/-- The branch of `prod_eval` for a symbolic upper limit that is repeated three times (src/Expr.cc:480-487, 506-513 and
517-524): the factors without the index are taken out of the product. -/
def prodOut (i : String) (lo : ℚ) (upper factor : Expr) : Expr :=
  if (outFactors i factor).1 = .num 1 then powE (outFactors i factor).2 (addE (subE upper (.num lo)) (.num 1))
  else mulE (powE (outFactors i factor).2 (addE (subE upper (.num lo)) (.num 1)))
    (.binder .prod (.sym i) (.num lo) upper (outFactors i factor).1)

/-- The branch of `prod_eval` for an upper limit `s + c` with a symbol `s` and an integer `c` (src/Expr.cc:489-504): the product
up to `s`, times the factors at `s + 1, ..., s + c` or divided by those at `s + c + 1, ..., s`. -/
def prodShift (i : String) (lo : ℚ) (s : String) (c : ℚ) (upper factor : Expr) : Expr :=
  let p := if (outFactors i factor).1 = .num 1 then powE (outFactors i factor).2 (addE (subE upper (.num lo)) (.num 1))
    else mulE (powE (outFactors i factor).2 (addE (subE upper (.num lo)) (.num 1)))
      (.binder .prod (.sym i) (.num lo) (.sym s) (outFactors i factor).1)
  if 0 < c then
    loopUp (fun p j => mulE p (substitute (.sym i) (addE (.sym s) (.num j)) factor)) c 1 p
  else
    loopUp (fun p j => mulE p (powE (substitute (.sym i) (addE (.sym s) (.num j)) factor) (.num (-1)))) 0 (c + 1) p

/-- The cases of `prod_eval` for an upper limit that is not a number (src/Expr.cc:460-527). -/
def prodSymbolic (i : String) (lo : ℚ) (upper factor : Expr) : Expr :=
  if factor = .num 1 then .num 1
  else match upper with
    | .add [.num c, .sym s] => if c.den = 1 then prodShift i lo s c upper factor else prodOut i lo upper factor
    | .add [.sym s, .num c] => if c.den = 1 then prodShift i lo s c upper factor else prodOut i lo upper factor
    | _ => prodOut i lo upper factor

/-- `prod_eval` (src/Expr.cc:435-528). -/
def prodEval (i : String) (lower upper factor : Expr) : Option Expr :=
  match lower with
  | .num lo =>
      match upper with
      | .num up =>
          if up < lo then some (.num 1)
          else if lo = up then some (substitute (.sym i) (.num lo) factor)
          else some (loopUp (fun p j => mulE p (substitute (.sym i) (.num j) factor)) up lo (.num 1))
      | _ => some (prodSymbolic i lo upper factor)
  | _ => none

/-- `binom_eval` (src/Expr.cc:235-252); `h` is the fresh symbol. -/
def binomEval (h : String) (m k : Expr) : Option Expr :=
  match m, k with
  | .num p, .num q =>
      if q < 0 ∨ q.den ≠ 1 then none
      else (prodEval h (.num (p - q + 1)) (.num p) (.sym h)).map fun e => mulE e (powE (.num (q.num.toNat.factorial : ℕ)) (.num (-1)))
  | m, k => some (.fn .binom [m, k])

/-- `compare(diff, 0) == 1` for a rational number (src/Expr.cc:717-736), with the floating-point approximation `fp`. -/
def isGreater (fp : ℚ → ℚ) (d : ℚ) : Bool := d ≠ 0 && (0 < fp d && 1 / 10 ^ 6 < fp d)

/-- `max_eval` (src/Expr.cc:565-578); `norm` is GiNaC's canonicalisation of the difference. -/
def maxEval (fp : ℚ → ℚ) (norm : Expr → Expr) (a b : Expr) : Expr :=
  match norm (subE a b) with
  | .num d => if isGreater fp d then a else b
  | d => if preservesNonneg d then a else if preservesNonneg (norm (negE d)) then b else .fn .max [a, b]

/-- `min_eval` (src/Expr.cc:614-627). -/
def minEval (fp : ℚ → ℚ) (norm : Expr → Expr) (a b : Expr) : Expr :=
  match norm (subE a b) with
  | .num d => if isGreater fp d then b else a
  | d => if preservesNonneg d then b else if preservesNonneg (norm (negE d)) then a else .fn .min [a, b]

end Purrs.EvalRules
