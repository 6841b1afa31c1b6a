import Verif.Model.OldMethod

/-!
# The old method of the linear solver for order 1 (src/compute_exact_solution.cc:109-163, 918-934, 965-977, src/finite_order.cc:100-121, 253-388, 586-618)

Model at the level of expressions; `Model/Exact.lean` has the values (`solveOrder1`).

Simplifications: there is one root, of multiplicity 1 (the branches for other orders are never run, see `Model/OldMethod.lean`);
`sum_poly_times_exponentials`, `simplify_ex_for_output` and Gosper's algorithm, which have models of their own, are parameters.  The symbols created by
the functions are the parameters `k`, `x`, `alpha`, `lambda` and `h`; the automatic evaluation of `sum` is left out.
-/

namespace Purrs.OldMethod

open Verify (xAt)
open SolveLin (Ops decomposition)
open WeightedAvg (divE)

/-- The operations that are parameters. -/
structure Ops1 where
  /-- `sum_poly_times_exponentials(q, k, n, x)`. -/
  polyExp : Expr → Expr → Expr
  /-- `simplify_ex_for_output(·, false)`. -/
  simp : Expr → Expr
  /-- `gosper_algorithm(n, t, lower, n, ·)`. -/
  gosper : ℕ → Expr → Option Expr

/-- The symbols. -/
structure Names where
  n : String
  k : String
  x : String
  alpha : String
  lambda : String
  h : String

variable (P : Ops1) (s : Names)

/-- `q_k` (src/finite_order.cc:105). -/
def qk (coeff : Expr) : Expr := substitute (.sym s.n) (.sym s.k) coeff

/-- The `j`-th term of the sum (src/finite_order.cc:113-114). -/
def termJ (coeff : Expr) (j : ℕ) : Expr :=
  mulE (mulE (substitute (.sym s.k) (.num j) (qk s coeff)) (powE (.sym s.alpha) (.num j))) (powE (.sym s.lambda) (.num (-(j : ℚ))))

/-- `return_sum` before the last simplification (src/finite_order.cc:103-117). -/
def rawSum (distinct : Bool) (lower : ℕ) (coeff : Expr) : Expr :=
  let s0 := if distinct then P.polyExp (qk s coeff) (.sym s.x) else P.polyExp (qk s coeff) (.num 1)
  let s1 := (List.range lower).foldl (fun e j => subE e (termJ s coeff j)) s0
  let s2 := if distinct then substitute (.sym s.x) (divE (.sym s.alpha) (.sym s.lambda)) s1 else s1
  mulE s2 (powE (.sym s.lambda) (.sym s.n))

/-- `return_sum` (src/finite_order.cc:100-121). -/
def returnSumE (distinct : Bool) (lower : ℕ) (coeff : Expr) : Expr := P.simp (rawSum P s distinct lower coeff)

/-- `compute_symbolic_sum` for one root (src/finite_order.cc:253-325): the two vectors, entry by entry; the terms are read from the last to the
first. -/
def symbolicSums (root : Expr) (lower : ℕ) (ts : List (Expr × Expr × Expr)) : List (Expr × Expr) :=
  ts.reverse.map fun t =>
    if root = t.1 then (.num 0, returnSumE P s false lower t.2.1) else (returnSumE P s true lower t.2.1, .num 0)

/-- `subs_to_sum_roots_and_bases` for one root (src/finite_order.cc:342-388); the counter `r` is the position in the reversed list. -/
def subsSums (root : Expr) (ts : List (Expr × Expr × Expr)) (sums : List (Expr × Expr)) : Expr :=
  ts.reverse.zipIdx.foldl (fun solution p =>
    let v := sums.getD p.2 (.num 0, .num 0)
    let tmp := if p.1.1 ≠ root then v.1 else v.2
    addE solution (substitute (.sym s.lambda) root (substitute (.sym s.alpha) p.1.1 tmp))) (.num 0)

/-- The summand given to Gosper's algorithm (src/finite_order.cc:599-600). -/
def summandE (root : Expr) (t : Expr × Expr × Expr) : Expr :=
  mulE (mulE (powE t.1 (.sym s.n)) t.2.2) (powE root (negE (.sym s.n)))

/-- The symbolic sum when Gosper's algorithm cannot be used (src/finite_order.cc:606-611). -/
def symbolicE (root : Expr) (lower : ℕ) (t : Expr × Expr × Expr) : Expr :=
  .binder .sum (.sym s.h) (.num (lower : ℚ)) (.sym s.n)
    (mulE (mulE (powE root (negE (.sym s.h))) (substitute (.sym s.n) (.sym s.h) t.2.2)) (substitute (.sym s.n) (.sym s.h) (powE t.1 (.sym s.n))))

/-- `gosper_solution` for one term (src/finite_order.cc:595-613). -/
def gosperE (root : Expr) (lower : ℕ) (t : Expr × Expr × Expr) : Expr :=
  if t.2.2 = .num 0 then .num 0
  else match P.gosper lower (summandE s root t) with
    | some g => g
    | none => symbolicE s root lower t

/-- `compute_sum_with_transcendental_method` (src/finite_order.cc:586-618). -/
def transcendentalE (root : Expr) (lower : ℕ) (ts : List (Expr × Expr × Expr)) : Expr :=
  ts.foldr (fun t solution => addE solution (mulE (powE root (.sym s.n)) (gosperE P s root lower t))) (.num 0)

/-- `solve_constant_coeff_order_1` (src/compute_exact_solution.cc:109-163) from the decomposition of the inhomogeneous term on. -/
def nonHom1 (f : ℕ) (root : Expr) (ts : List (Expr × Expr × Expr)) : Expr :=
  let solution := if ts.any fun t => t.2.1 ≠ .num 0 then subsSums s root ts (symbolicSums P s root (1 + f) ts) else .num 0
  if ts.any fun t => t.2.2 ≠ .num 0 then addE solution (transcendentalE P s root (f + 1) ts) else solution

/-- The old method for order 1 (src/compute_exact_solution.cc:918-934, 960-977); the exponent is `n - (first_valid_index - order() + 1)`. -/
def oldOne (O : Ops) (f : ℕ) (a1 root inhom : Expr) : Expr :=
  addE (mulE (xAt f) (powE a1 (subE (.sym s.n) (.num f)))) (O.simp (nonHom1 P s f root (decomposition O s.n inhom)))

end Purrs.OldMethod
