import Verif.Model.IntUtil
import Mathlib.Algebra.Polynomial.Eval.Defs
import Mathlib.Algebra.Polynomial.Degree.Defs
import Mathlib.Algebra.Field.Basic
import Mathlib.Algebra.BigOperators.Group.List.Basic
import Mathlib.Order.Interval.Finset.Basic
import Mathlib.Data.Int.Interval
import Mathlib.Algebra.BigOperators.Group.Finset.Basic

/-!
# Model of the solver of finite order linear recurrences

`src/compute_exact_solution.cc` and `src/finite_order.cc`.

Simplification: an expression in `n` is modelled by the function `ℤ → K` that it denotes over a
field `K` (so `substitute(n, n - i)` is composition with a shift, `x(i)` is the value of the unknown
sequence, and the rewriting done by `expand`, `simplify_*`, `collect` and `blackboard.rewrite`, which
does not change the value, disappears).  `Matrix::solve` and `lsolve` (GiNaC) are modelled by the
equations that the values returned satisfy.
-/

namespace Purrs.Exact

variable {K : Type} [Field K]

/-- The data of a linear recurrence of finite order with constant coefficients
`x(n) = a 1 * x(n-1) + ... + a k * x(n-k) + p(n)` (src/Finite_Order_Info.defs.hh:40-120 and
`inhomogeneous_term`, `first_valid_index` of src/Recurrence.defs.hh): `a j` is `coefficients()[j]`,
`k` is `order()`, `f` is `first_valid_index`. -/
structure LinRec (K : Type) where
  k : ℕ
  a : ℕ → K
  p : ℤ → K
  f : ℕ

/-- `compute_term_about_initial_conditions` (src/compute_exact_solution.cc:70-85); `x` gives the
values of the symbolic initial conditions. -/
def termIC (R : LinRec K) (g : ℤ → K) (x : ℤ → K) (n : ℤ) : K :=
  (List.range R.k).foldr (fun (i : ℕ) term =>
    let tmp := (List.range i).foldr (fun (j : ℕ) tmp =>
      tmp - R.a (j + 1) * x (R.f + i - (j + 1))) (x (R.f + i))
    term + tmp * g (n - i - R.f)) 0

/-- The vector `tmp` of `solve_system` (src/finite_order.cc:424-428): the first `m` entries. -/
def sysRhs (a : ℕ → K) : ℕ → List K
  | 0 => []
  | 1 => [1]
  | m + 2 =>
    let tmp := sysRhs a (m + 1)
    tmp ++ [(List.range (m + 1)).foldl (fun s (j : ℕ) => s + a (j + 1) * tmp.getD (m + 1 - j - 1) 0) 0]

/-- Row `h` of the matrix of `solve_system` (src/finite_order.cc:436-447).  The roots come with their
multiplicities. -/
def sysRow (allDistinct : Bool) (k : ℕ) (roots : List (K × ℕ)) (h : ℕ) : List K :=
  if allDistinct then (List.range k).map fun j => (roots.getD j (0, 0)).1 ^ h
  else roots.reverse.flatMap fun r =>
    ((List.range (r.2 - 1)).reverse.map fun j => (h : K) ^ (j + 1) * r.1 ^ h) ++ [r.1 ^ h]

/-- The order as computed from the roots (src/finite_order.cc:473-476). -/
def rootsOrder (roots : List (K × ℕ)) : ℕ := roots.foldr (fun r o => o + r.2) 0

/-- The double loop of `find_g_n` for multiple roots (src/finite_order.cc:481-485): `h` is the number
of the next unknown. -/
def findGLoop (sol : ℕ → K) (n : ℤ) : List (K × ℕ) → ℕ → K → K
  | [], _, g => g
  | r :: rs, h, g =>
    let st := (List.range r.2).reverse.foldl
      (fun (st : ℕ × K) j => (st.1 + 1, st.2 + sol st.1 * (n : K) ^ j * r.1 ^ n)) (h, g)
    findGLoop sol n rs st.1 st.2

/-- `find_g_n` (src/finite_order.cc:470-487). -/
def findG (allDistinct : Bool) (sol : ℕ → K) (roots : List (K × ℕ)) (n : ℤ) : K :=
  if allDistinct then
    (List.range (rootsOrder roots)).foldl
      (fun g i => g + sol i * (roots.getD i (0, 0)).1 ^ n) 0
  else findGLoop sol n roots.reverse 0 0

/-- What `Matrix::solve` guarantees for `solve_system` (src/finite_order.cc:450-462): `sol` satisfies
the `k` equations. -/
def SysSolved (allDistinct : Bool) (R : LinRec K) (roots : List (K × ℕ)) (sol : ℕ → K) : Prop :=
  ∀ h < R.k, ((sysRow allDistinct R.k roots h).zipIdx.map fun c => c.1 * sol c.2).sum
    = (sysRhs R.a R.k).getD h 0

/-- The non-homogeneous part for an inhomogeneous term that is not a combination of polynomials
times exponentials: `sum(h, first_valid_index + order, n, g(n-h) * p(h))`
(src/compute_exact_solution.cc:509-517, 624-631, 638-645). -/
def convolution (R : LinRec K) (g : ℤ → K) (n : ℤ) : K :=
  ∑ h ∈ Finset.Icc ((R.f : ℤ) + R.k) n, g (n - h) * R.p h

/-- The solution built by the old method for orders `≥ 2` (src/compute_exact_solution.cc:895-1000):
`compute_term_about_initial_conditions(g_n, ...) + solution` with `g_n` from `solve_system` and
`find_g_n` (multiple roots or order `≥ 3`). -/
def oldSolution (allDistinct : Bool) (R : LinRec K) (roots : List (K × ℕ)) (sol : ℕ → K) (x : ℤ → K)
    (n : ℤ) : K :=
  let g := findG allDistinct sol roots
  termIC R g x n + convolution R g n

/-- `g_n` for order 2 with distinct roots (src/compute_exact_solution.cc:389-391). -/
def g2 (r1 r2 : K) (n : ℤ) : K := (r1 ^ (n + 1) - r2 ^ (n + 1)) / (r1 - r2)

/-- The non-homogeneous part for order 2 with distinct roots
(src/compute_exact_solution.cc:477-490). -/
def sum2 (R : LinRec K) (r1 r2 : K) (n : ℤ) : K :=
  1 / (r1 - r2) *
    (r1 ^ (n + 1) * ∑ h ∈ Finset.Icc ((R.f : ℤ) + 2) n, r1 ^ (-h) * R.p h
      - r2 ^ (n + 1) * ∑ h ∈ Finset.Icc ((R.f : ℤ) + 2) n, r2 ^ (-h) * R.p h)

/-- The solution built by the old method for order 2 with distinct roots. -/
def oldSolution2 (R : LinRec K) (r1 r2 : K) (x : ℤ → K) (n : ℤ) : K :=
  termIC R (g2 r1 r2) x n + sum2 R r1 r2 n

/-- The solution built by the new method for order 1 (src/compute_exact_solution.cc:1040-1046), from
the special solution `s`. -/
def newSolution1 (R : LinRec K) (s : ℤ → K) (x : ℤ → K) (n : ℤ) : K :=
  (x R.f - s R.f) * R.a 1 ^ (n - R.f) + s n

/-- `general_solution` of the new method for orders `≥ 2`
(src/compute_exact_solution.cc:1048-1063): the special solution plus one unknown for each root and
each `j = 1, ..., multiplicity`, numbered in order; here for the unknowns numbered from `h`. -/
def generalHom (u : ℕ → K) (n : ℤ) : List (K × ℕ) → ℕ → K → K
  | [], _, g => g
  | r :: rs, h, g =>
    let st := (List.range r.2).foldl
      (fun (st : ℕ × K) j => (st.1 + 1, st.2 + u st.1 * r.1 ^ n * (n : K) ^ j)) (h, g)
    generalHom u n rs st.1 st.2

/-- `general_solution` (src/compute_exact_solution.cc:1048-1063). -/
def generalSolution (roots : List (K × ℕ)) (u : ℕ → K) (s : ℤ → K) (n : ℤ) : K :=
  generalHom u n roots 0 (s n)

/-- The number of unknowns (src/compute_exact_solution.cc:1065). -/
def numUnknowns (roots : List (K × ℕ)) : ℕ := (roots.map Prod.snd).sum

/-- What `lsolve` guarantees for the unknowns (src/compute_exact_solution.cc:1066-1085): the equations
`x(first_valid_index + i) - general_solution(first_valid_index + i) = 0` hold. -/
def ICSolved (f : ℕ) (roots : List (K × ℕ)) (u : ℕ → K) (s x : ℤ → K) : Prop :=
  ∀ i < numUnknowns roots, x ((f : ℤ) + i) - generalSolution roots u s ((f : ℤ) + i) = 0

open Polynomial in
/-- The polynomial `diff` of `compute_special_solution` after removing `base^n`
(src/compute_exact_solution.cc:683-698), for the polynomial `q` with coefficients `c 0, ..., c deg`
put in place of the unknowns. -/
noncomputable def specialDiff (a : ℕ → K) (k : ℕ) (poly : K[X]) (base : K) (q : K[X]) : K[X] :=
  q - (∑ j ∈ Finset.range k, C (a (j + 1) * base ^ (-((j : ℤ) + 1))) * q.comp (X - C ((j : K) + 1))) - poly

open Polynomial in
/-- The generic polynomial of degree `deg(poly) + mult` (src/compute_exact_solution.cc:674-681). -/
noncomputable def specialPoly (c : ℕ → K) (deg : ℕ) : K[X] :=
  ∑ i ∈ Finset.range (deg + 1), X ^ i * C (c i)

open Polynomial in
/-- What `lsolve` guarantees in `compute_special_solution` (src/compute_exact_solution.cc:712-738):
the coefficients of degree `0, ..., deg` of `diff` vanish. -/
def SpecialSolved (R : LinRec K) (poly : K[X]) (base : K) (mult : ℕ) (c : ℕ → K) : Prop :=
  let deg := poly.natDegree + mult
  ∀ i < deg + 1, (specialDiff R.a R.k poly base (specialPoly c deg)).coeff i = 0

open Polynomial in
/-- The value returned by `compute_special_solution` (src/compute_exact_solution.cc:661-745), slow
path: the polynomial found times `base^n`. -/
noncomputable def specialSolution (poly : K[X]) (base : K) (mult : ℕ) (c : ℕ → K) (n : ℤ) : K :=
  (specialPoly c (poly.natDegree + mult)).eval (n : K) * base ^ n

/-- The multiplicity of the base among the roots as searched by the loop of
src/compute_exact_solution.cc:1012-1015 (from the last root to the first, the last match wins). -/
def baseMult [DecidableEq K] (roots : List (K × ℕ)) (base : K) : ℕ :=
  roots.foldr (fun r mult => if r.1 = base then r.2 else mult) 0

open Polynomial in
/-- One term `poly * base^n` of the decomposition of the inhomogeneous term together with the values
that `lsolve` found for the coefficients of its special solution. -/
structure ExpTerm (K : Type) [Field K] where
  poly : K[X]
  base : K
  c : ℕ → K

/-- The sum of the special solutions of all the terms (src/compute_exact_solution.cc:1007-1019). -/
noncomputable def newSpecial [DecidableEq K] (roots : List (K × ℕ)) (ts : List (ExpTerm K)) (n : ℤ) : K :=
  ts.foldl (fun sol t => sol + specialSolution t.poly t.base (baseMult roots t.base) t.c n) 0

/-- The solution built by the new method for orders `≥ 2` (src/compute_exact_solution.cc:1002-1092). -/
noncomputable def newSolution [DecidableEq K] (roots : List (K × ℕ)) (ts : List (ExpTerm K)) (u : ℕ → K)
    (n : ℤ) : K :=
  generalSolution roots u (newSpecial roots ts) n

/-- The vector `denominators` of `build_characteristic_equation` (src/finite_order.cc:71-76). -/
def charDenominators (co : List ℚ) : List Int :=
  co.reverse.filterMap fun q => if q.den ≠ 1 then some (q.den : Int) else none

open Polynomial in
/-- `build_characteristic_equation` (src/finite_order.cc:65-99); `co` is the vector `coefficients`,
whose entry 0 is not used and whose size is the order plus one. -/
noncomputable def buildCharEq (co : List ℚ) : ℚ[X] :=
  let k := co.length - 1
  if (charDenominators co).length ≠ 0 then
    let l : ℚ := lcmVec (charDenominators co)
    let ic := fun (i : ℕ) => if i = 0 then co.getD i 0 else co.getD i 0 * l
    (List.range k).foldr (fun i p => p + X ^ i * C (-ic (k - i))) 0 + C l * X ^ k
  else
    (List.range k).foldr (fun i p => p + X ^ i * C (-co.getD (k - i) 0)) 0 + X ^ k

open Polynomial in
/-- `return_sum` (src/finite_order.cc:101-121) with `alpha` and `lambda` already substituted by their
values, as `subs_to_sum_roots_and_bases` does (src/finite_order.cc:342-388).  The closed form computed by
`sum_poly_times_exponentials` is modelled by the sum that it is proved to equal (property C10). -/
def returnSum (distinct : Bool) (lower : ℕ) (q : K[X]) (alpha lambda : K) (n : ℕ) : K :=
  let y := if distinct then alpha / lambda else 1
  let s := ∑ j ∈ Finset.range (n + 1), q.eval (j : K) * y ^ j
  let s := (List.range lower).foldl
    (fun s (j : ℕ) => s - q.eval (j : K) * alpha ^ j * lambda ^ (-(j : ℤ))) s
  s * lambda ^ n

open Polynomial in
/-- One entry of the decomposition of the inhomogeneous term: base, polynomial and non-polynomial part of
its coefficient. -/
structure EPTerm (K : Type) [Field K] where
  base : K
  poly : K[X]
  rest : ℕ → K

/-- `solve_constant_coeff_order_1` (src/compute_exact_solution.cc:109-163): the sums of the polynomial
parts (`compute_symbolic_sum` and `subs_to_sum_roots_and_bases` for order 1), then the sums of the other
parts (`compute_sum_with_transcendental_method`, src/finite_order.cc:586-618, where the result of Gosper's
algorithm is modelled by the sum that it stands for). -/
def solveOrder1 [DecidableEq K] (lambda : K) (f : ℕ) (ts : List (EPTerm K)) (n : ℕ) : K :=
  ts.foldr (fun t s => s + returnSum (t.base ≠ lambda) (f + 1) t.poly t.base lambda n) 0
    + ts.foldr (fun t s => s + lambda ^ n *
        ∑ h ∈ Finset.Icc (f + 1) n, lambda ^ (-(h : ℤ)) * t.rest h * t.base ^ h) 0

/-- The solution built by the old method for order 1 (src/compute_exact_solution.cc:965-976): the exponent
is `n - (first_valid_index - order() + 1)`. -/
def oldSolution1 [DecidableEq K] (lambda : K) (f : ℕ) (ts : List (EPTerm K)) (xf : K) (n : ℕ) : K :=
  xf * lambda ^ ((n : ℤ) - ((f : ℤ) - 1 + 1)) + solveOrder1 lambda f ts n

/-- `solve_variable_coeff_order_1` (src/compute_exact_solution.cc:194-224): `product_factor` is the product
of `alpha(k)` for `k` from `first_valid_index + 1` to `n` (property C53), and the recurrence
`y(n) = y(n-1) + p(n)/product_factor(n)` is solved by `solve_constant_coeff_order_1`, which for the root 1 is
the sum of the inhomogeneous term. -/
def solveVar1 (alpha p : ℕ → K) (f : ℕ) (xf : K) (n : ℕ) : K :=
  let pf := fun m => ∏ k ∈ Finset.Icc (f + 1) m, alpha k
  pf n * ((∑ k ∈ Finset.Icc (f + 1) n, p k / pf k) + xf)

end Purrs.Exact
