import Verif.Model.ExprLemmas
import Mathlib.Data.Nat.Factorial.Basic

/-!
# Model of `src/sum_poly.cc`

A polynomial in `x` that GiNaC has expanded is represented by the list of its coefficients
`cs` (`p.coeff(x, i) = cs[i]`, `p.degree(x) = cs.length - 1`), which are expressions; the
polynomial itself as an expression is `polyExpr x cs`.
`expand()` (GiNaC) only rewrites the expression and is omitted.
-/

namespace Purrs

/-- The polynomial `Σ cs[i] x^(i+k)`. -/
def polyExprFrom (x : String) : Nat → List Expr → Expr
  | _, [] => .num 0
  | k, c :: cs => addE (mulE c (powE (.sym x) (.num k))) (polyExprFrom x (k + 1) cs)

/-- The polynomial `Σ cs[i] x^i` as an expression. -/
def polyExpr (x : String) (cs : List Expr) : Expr := polyExprFrom x 0 cs

/-- `p.degree(x)` (GiNaC) for a polynomial given by its coefficients. -/
def polyDegree (cs : List Expr) : Nat := cs.length - 1

/-- `p.coeff(x, i)` (GiNaC). -/
def polyCoeff (cs : List Expr) (i : Nat) : Expr := cs.getD i (.num 0)

/-- `falling_product(x, k, q)` (src/sum_poly.cc:56-61). -/
def fallingProduct (y : Expr) (k : Nat) : Expr :=
  (List.range k).foldl (fun q (i : Nat) => mulE q (subE y (.num i))) (.num 1)

/-- `sum_falling_prod_times_exp(k, x, N, q)` (src/sum_poly.cc:69-80). -/
def sumFallingProdTimesExp (k : Nat) (x N : String) : Expr :=
  let omx := subE (.num 1) (.sym x)
  let q := (List.range (k + 1)).foldl (fun q (i : Nat) =>
      subE q (mulE (mulE (mulE (fallingProduct (addE (.sym N) (.num 1)) i)
          (.num (1 / (i.factorial : ℚ))))
        (powE (.sym x) (subE (addE (.sym N) (.num 1)) (.num i))))
        (powE omx (.num ((i : ℚ) - k - 1)))))
    (powE omx (.num (- (k : ℚ) - 1)))
  mulE q (mulE (.num k.factorial) (powE (.sym x) (.num k)))

/-- The loop of `poly_dec` (src/sum_poly.cc:95-101): `m` iterations left, starting at `i`. -/
def polyDecLoop (x : String) : Nat → Nat → Expr → Expr → List Expr
  | 0, _, _, _ => []
  | m + 1, i, q, r =>
      let q' := mulE (subE q r) (powE (subE (.sym x) (.num i)) (.num (-1)))
      let r' := substitute (.sym x) (.num (i + 1 : ℕ)) q'
      r' :: polyDecLoop x m (i + 1) q' r'

/-- `poly_dec(p, x, summands)` (src/sum_poly.cc:89-102). -/
def polyDec (x : String) (cs : List Expr) : List Expr :=
  polyCoeff cs 0 :: polyDecLoop x (polyDegree cs) 0 (polyExpr x cs) (polyCoeff cs 0)

/-- `sum_poly(p, x, N, q)` (src/sum_poly.cc:110-121). -/
def sumPoly (x N : String) (cs : List Expr) : Expr :=
  let summands := polyDec x cs
  (List.range (polyDegree cs + 1)).foldl (fun q (i : Nat) =>
    addE q (mulE (mulE (.num (1 / ((i : ℚ) + 1))) (polyCoeff summands i))
      (fallingProduct (addE (.sym N) (.num 1)) (i + 1)))) (.num 0)

/-- `sum_poly_times_exponentials(p, x, N, alpha)` (src/sum_poly.cc:170-191). -/
def sumPolyTimesExponentials (x N : String) (cs : List Expr) (alpha : Expr) : Expr :=
  let q :=
    if alpha = .num 1 then sumPoly x N cs
    else
      let summands := polyDec x cs
      (List.range (polyDegree cs + 1)).foldl (fun q (i : Nat) =>
        addE q (mulE (sumFallingProdTimesExp i x N) (polyCoeff summands i))) (.num 0)
  substitute (.sym x) alpha q

/-- The coefficients after integrating for exponent `i` (src/sum_poly.cc:145-154): entry
`j - 1` of the argument and of the result is `coefficients[j]`, `j ≥ 1`. -/
def levyStep (i : Nat) (c : List ℚ) : List ℚ :=
  let tail := (List.range c.length).map fun (m : Nat) => (i : ℚ) * c.getD m 0 / ((m : ℚ) + 2)
  (1 - tail.sum) :: tail

/-- The state of `coefficients` after the iterations `1 .. i` (src/sum_poly.cc:143-145). -/
def levyCoeffs : Nat → List ℚ
  | 0 => [1]
  | i + 1 => levyStep (i + 1) (levyCoeffs i)

/-- `partial_sum` of iteration `i` (src/sum_poly.cc:155-157), highest power first. -/
def levyPartial (N : String) (i : Nat) : Expr :=
  (List.range (i + 1)).foldr (fun (m : Nat) acc =>
    addE acc (mulE (powE (.sym N) (.num ((m : ℚ) + 1))) (.num ((levyCoeffs i).getD m 0)))) (.num 0)

/-- `sum_poly_alt(p, x, N)` (src/sum_poly.cc:136-161). -/
def sumPolyAlt (N : String) (cs : List Expr) : Expr :=
  (List.range (polyDegree cs)).foldl (fun acc (m : Nat) =>
    addE acc (mulE (levyPartial N (m + 1)) (polyCoeff cs (m + 1))))
    (mulE (addE (.sym N) (.num 1)) (polyCoeff cs 0))

end Purrs
