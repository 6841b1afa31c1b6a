import Verif.Model.SolveLinear

/-!
# The old method of the linear solver, at the level of expressions (src/compute_exact_solution.cc:70-87, 348-646, 908-1000, src/finite_order.cc:470-487)

It is used when the inhomogeneous term is not a sum of polynomials times exponentials; the branches that are only run for such sums
(src/compute_exact_solution.cc:392-475, 505-507, 603-623, 634-636) cannot be reached and are not modelled.  `Model/Exact.lean` has the values.

Simplifications: the automatic evaluation of `sum` by GiNaC is left out; `Matrix::solve` is a parameter (the entries `sol`); `h` is the new symbol.
-/

namespace Purrs.OldMethod

open Verify (xAt)
open SolveLin (Ops)
open WeightedAvg (divE)

/-- `tmp` in `compute_term_about_initial_conditions` (src/compute_exact_solution.cc:80-82): `x(f+i) - a_i x(f) - … - a_1 x(f+i-1)`. -/
def icTmp (f : ℕ) (co : ℕ → ℚ) (i : ℕ) : Expr :=
  (List.range i).foldr (fun j tmp => subE tmp (mulE (.num (co (j + 1))) (xAt (f + i - (j + 1))))) (xAt (f + i))

/-- `compute_term_about_initial_conditions` (src/compute_exact_solution.cc:70-87). -/
def termICE (n : String) (f : ℕ) (co : ℕ → ℚ) (k : ℕ) (g : Expr) : Expr :=
  (List.range k).foldr (fun i term =>
    addE term (mulE (icTmp f co i) (substitute (.sym n) (subE (subE (.sym n) (.num i)) (.num f)) g))) (.num 0)

/-- The order as computed from the roots (src/finite_order.cc:473-476). -/
def rootsOrderE (roots : List (Expr × ℕ)) : ℕ := roots.foldr (fun r o => o + r.2) 0

/-- The double loop of `find_g_n` for multiple roots (src/finite_order.cc:481-485). -/
def findLoopE (n : String) (sol : ℕ → Expr) : List (Expr × ℕ) → ℕ → Expr → Expr
  | [], _, g => g
  | r :: rs, i, g =>
    let st := (List.range r.2).reverse.foldl
      (fun (st : ℕ × Expr) (j : ℕ) => (st.1 + 1, addE st.2 (mulE (mulE (sol st.1) (powE (.sym n) (.num j))) (powE r.1 (.sym n))))) (i, g)
    findLoopE n sol rs st.1 st.2

/-- `find_g_n` (src/finite_order.cc:468-487). -/
def findGE (n : String) (allDistinct : Bool) (sol : ℕ → Expr) (roots : List (Expr × ℕ)) : Expr :=
  if allDistinct then
    (List.range (rootsOrderE roots)).foldl (fun g i => addE g (mulE (sol i) (powE (roots.getD i (.num 0, 0)).1 (.sym n)))) (.num 0)
  else findLoopE n sol roots.reverse 0 (.num 0)

/-- `g_n` for order 2 with distinct roots (src/compute_exact_solution.cc:389-390); `diff` is `diff_roots`. -/
def g2E (n : String) (r1 r2 diff : Expr) : Expr :=
  divE (subE (powE r1 (addE (.sym n) (.num 1))) (powE r2 (addE (.sym n) (.num 1)))) diff

/-- One of the sums for order 2 with distinct roots (src/compute_exact_solution.cc:482-489): the sum of `r^(-h) p(h)`. -/
def rootSum (n h : String) (lower : ℕ) (r inhom : Expr) : Expr :=
  .binder .sum (.sym h) (.num lower) (.sym n) (mulE (powE r (negE (.sym h))) (substitute (.sym n) (.sym h) inhom))

/-- The non-homogeneous part for order 2 with distinct roots (src/compute_exact_solution.cc:477-490). -/
def sum2E (n h : String) (f : ℕ) (r1 r2 diff inhom : Expr) : Expr :=
  mulE (divE (.num 1) diff)
    (subE (mulE (powE r1 (addE (.sym n) (.num 1))) (rootSum n h (f + 2) r1 inhom))
      (mulE (powE r2 (addE (.sym n) (.num 1))) (rootSum n h (f + 2) r2 inhom)))

/-- The non-homogeneous part in the other cases (src/compute_exact_solution.cc:508-516, 624-631, 637-644). -/
def convE (n h : String) (f k : ℕ) (g inhom : Expr) : Expr :=
  .binder .sum (.sym h) (.num ((f + k : ℕ) : ℚ)) (.sym n)
    (mulE (substitute (.sym n) (subE (.sym n) (.sym h)) g) (substitute (.sym n) (.sym h) inhom))

/-- The first two roots. -/
def root1 (roots : List (Expr × ℕ)) : Expr := (roots.getD 0 (.num 0, 0)).1
/-- The first two roots. -/
def root2 (roots : List (Expr × ℕ)) : Expr := (roots.getD 1 (.num 0, 0)).1

/-- `g_n` (src/compute_exact_solution.cc:381-390, 497-503, 595-599). -/
def gE (n : String) (k : ℕ) (allDistinct : Bool) (sol : ℕ → Expr) (diff : Expr) (roots : List (Expr × ℕ)) : Expr :=
  if k = 2 && allDistinct then g2E n (root1 roots) (root2 roots) diff else findGE n allDistinct sol roots

/-- `solve_constant_coeff_order_2` and `solve_constant_coeff_order_k` (src/compute_exact_solution.cc:348-519, 583-646). -/
def nonHomE (n h : String) (f k : ℕ) (allDistinct : Bool) (sol : ℕ → Expr) (diff inhom : Expr) (roots : List (Expr × ℕ)) : Expr :=
  if k = 2 && allDistinct then sum2E n h f (root1 roots) (root2 roots) diff inhom
  else convE n h f k (findGE n allDistinct sol roots) inhom

/-- The old method for order at least 2 (src/compute_exact_solution.cc:934-1000). -/
def oldHigh (O : Ops) (n h : String) (f : ℕ) (co : ℕ → ℚ) (k : ℕ) (allDistinct : Bool) (sol : ℕ → Expr) (diff inhom : Expr)
    (roots : List (Expr × ℕ)) : Expr :=
  O.expand (O.rw (addE (termICE n f co k (gE n k allDistinct sol diff roots)) (O.simp (nonHomE n h f k allDistinct sol diff inhom roots))))

end Purrs.OldMethod
