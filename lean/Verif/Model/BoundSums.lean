import Verif.Model.Bounds
import Verif.Model.SumPoly
import Verif.Model.Decomp

/-!
# The sums in the bounds for functional equations: src/compute_bounds.cc:593-691

`compute_sum` and `try_to_compute_sum`; `n` is the name of `Recurrence::n`.

Simplifications: `expand` together with the simplifications at the beginning of `exp_poly_decomposition` is a parameter, so
are `simplify_ex_for_output`, the coefficients of a polynomial, the new symbols and Gosper's algorithm (`Verif.Model.Gosper`).
-/

namespace Purrs.Bounds

open Purrs Purrs.WeightedAvg

/-- The operations that are not modelled here. -/
structure SumOps where
  expand : Expr → Expr
  simp : Expr → Expr
  /-- The coefficients of a polynomial in `n`. -/
  coeffs : Expr → List Expr
  /-- The symbol `k` (src/compute_bounds.cc:627). -/
  k : String
  /-- The symbol `h` (src/compute_bounds.cc:676, 686). -/
  h : String
  /-- `gosper_algorithm(n, t, index, n, result)`. -/
  gosper : Expr → ℚ → Option Expr

variable (n : String) (O : SumOps)

/-- The summand with `b^n` or `b^n - 1` for `n` (src/compute_bounds.cc:608-614). -/
def sumArg (t : Ty) (s : Expr) (b : ℚ) : Expr :=
  match t with
  | .lower => substitute (.sym n) (powE (.num b) (.sym n)) s
  | .upper => substitute (.sym n) (subE (powE (.num b) (.sym n)) (.num 1)) s

/-- One step of the loop for polynomials times exponentials (src/compute_bounds.cc:627-639). -/
def sumTerm (t : Ty) (a : ℚ) (d : Expr × Expr × Expr) (acc : Expr) : Expr :=
  let s := subE (addE acc (sumPolyTimesExponentials O.k n (O.coeffs d.2.1) (divE d.1 (.num a))))
    (substitute (.sym n) (.num 0) d.2.1)
  match t with
  | .lower => s
  | .upper => subE s (divE (mulE (substitute (.sym n) (.num 1) d.2.1) d.1) (.num a))

/-- The lower limit of the sums (src/compute_bounds.cc:642). -/
def Ty.index : Ty → ℚ
  | .lower => 1
  | .upper => 2

/-- The loop that uses Gosper's algorithm (src/compute_bounds.cc:643-651): the sum of the whole summand is added once for every
base. -/
def gosperLoop (t : Ty) (a : ℚ) (tmp : Expr) (ds : List (Expr × Expr × Expr)) : Option Expr :=
  ds.foldr (fun _ acc => acc.bind fun s =>
    (O.gosper (mulE (powE (.num a) (negE (.sym n))) tmp) t.index).map fun g => addE s g) (some (.num 0))

/-- `compute_sum` (src/compute_bounds.cc:601-657) for a `sum` that is initially zero; `none` stands for the answer `false`.  (If
it is called again after a failure of Gosper's algorithm the `sum` is still zero: the first call of the algorithm in the
loop fails as the others.) -/
def boundSum (t : Ty) (s : Expr) (a b : ℚ) : Option Expr :=
  let tmp := sumArg n t s b
  let ds := expPolyDecomposition n (O.expand tmp)
  let fin := fun r => O.simp (mulE r (powE (.num a) (.sym n)))
  if (ds.any fun d => d.2.1 ≠ .num 0) && ds.any fun d => d.2.2 ≠ .num 0 then none
  else if ds.any fun d => d.2.1 ≠ .num 0 then some (fin (ds.foldr (sumTerm n O t a) (.num 0)))
  else (gosperLoop n O t a tmp ds).map fin

/-- The sums that are returned when no closed form is found (src/compute_bounds.cc:677-678, 687-689). -/
def symbolicSum (t : Ty) (s : Expr) (a b : ℚ) : Expr :=
  let p := powE (.num a) (subE (.sym n) (.sym O.h))
  match t with
  | .lower => .binder .sum (.sym O.h) (.num 1) (.sym n) (mulE p (substitute (.sym n) (powE (.num b) (.sym O.h)) s))
  | .upper => .binder .sum (.sym O.h) (.num 2) (.sym n) (mulE p (substitute (.sym n) (subE (powE (.num b) (.sym O.h)) (.num 1)) s))

/-- `try_to_compute_sum` (src/compute_bounds.cc:666-691). -/
def trySum (t : Ty) (s : Expr) (a b : ℚ) : Expr :=
  match boundSum n O t s a b with
  | some r => r
  | none =>
    match boundSum n O t.swap s a b with
    | some r => r
    | none => symbolicSum n O t s a b

/-- The sums together with the test of monotonicity. -/
def sumsOf (mono : ℚ → Expr → Bool → Bool) : Sums := ⟨trySum n O, mono⟩

end Purrs.Bounds
