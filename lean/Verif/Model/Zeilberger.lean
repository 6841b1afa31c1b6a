import Mathlib.Algebra.Polynomial.Taylor
import Mathlib.Algebra.Polynomial.FieldDivision
import Mathlib.Order.Interval.Finset.Basic
import Mathlib.Data.Int.Interval

/-!
# Zeilberger's algorithm (src/zeilberger.cc)

Simplifications: the algorithm is modelled at one value of `m` that is not a zero of a denominator or of a leading coefficient that
occurs, so that a polynomial in `k` with coefficients in `m` is a polynomial over a field and `s 1 (m + i)` is a polynomial for each
`i`; `expand()` is the identity.  `shift k p` is `p.substitute(k, k + ..)`.  The ratios of consecutive terms
(src/zeilberger.cc:69-91) are given by their numerators and denominators.  GiNaC's `gcd`, the numerator and denominator of
`r/s` and `lsolve` are parameters.  The output on the console is omitted.
-/

namespace Purrs.Zeilberger

open Polynomial

noncomputable section

open Classical

variable {K : Type} [Field K]

/-- The operations that are not modelled; `lsolve N F` solves the equations `F u a i = 0`, `i < N`, for the unknowns `u` and `a`. -/
structure Ops (K : Type) [Field K] where
  gcd : K[X] → K[X] → K[X]
  numDen : K[X] → K[X] → K[X] × K[X]
  lsolve : ℕ → ((ℕ → K) → (ℕ → K) → ℕ → K) → Option ((ℕ → K) × (ℕ → K))

/-- The change of signs of a numerator and denominator if a factor of the numerator is `-1` (src/zeilberger.cc:92-98, 104-110). -/
def fixSign (neg : Bool) (p : K[X] × K[X]) : K[X] × K[X] := if neg then (p.1 * C (-1), p.2 * C (-1)) else p

/-- `p_0_k` (src/zeilberger.cc:116-126): `s1 i` and `s2 i` are the numerator and the denominator of `F(m + i, k)/F(m + i - 1, k)`. -/
def p0 (s1 s2 : ℕ → K[X]) (order : ℕ) (a : ℕ → K) : K[X] :=
  (List.range (order + 1)).foldl (fun p (j : ℕ) =>
    p + C (a j) * ((List.range j).foldl (fun q (i : ℕ) => q * s1 (j - i)) 1)
      * ((List.range (order - j)).foldl (fun q (i : ℕ) => q * s2 (j + 1 + i)) 1)) 0

/-- `prod_for_r` and `prod_for_s` (src/zeilberger.cc:129-135). -/
def prods (s2 : ℕ → K[X]) (order : ℕ) : K[X] × K[X] :=
  (List.range order).foldl (fun p (i : ℕ) => (p.1 * s2 (i + 1), p.2 * taylor 1 (s2 (i + 1)))) (1, 1)

/-- `r_k` and `s_k` (src/zeilberger.cc:136-137), where `r` is the numerator and the denominator of `F(m, k + 1)/F(m, k)`. -/
def stepOne (s2 : ℕ → K[X]) (r : K[X] × K[X]) (order : ℕ) : K[X] × K[X] :=
  (r.1 * (prods s2 order).1, r.2 * (prods s2 order).2)

variable (O : Ops K)

/-- The body of the loop of `parametric_gosper_step_two` (src/zeilberger.cc:164-173): `p1`, `p2`, `p3`. -/
def reduce (st : K[X] × K[X] × K[X]) (h : ℕ) : K[X] × K[X] × K[X] :=
  let s := O.gcd st.2.1 (taylor (h : K) st.2.2)
  ((List.range h).foldl (fun c (j : ℕ) => c * taylor (-((j : K) + 1)) s) st.1, st.2.1 / s, st.2.2 / taylor (-(h : K)) s)

/-- `parametric_gosper_step_two` (src/zeilberger.cc:150-244). -/
def stepTwo (r s : K[X]) : K[X] × K[X] × K[X] :=
  let nd := O.numDen r s
  (List.range 100).foldl (fun st (h : ℕ) => if 0 < (O.gcd nd.1 nd.2).natDegree then reduce O st (h + 1) else st) (1, nd.1, nd.2)

/-- The degree of the solution (src/zeilberger.cc:260-292); `none` is `-1`. -/
def degX (p2 p3 : K[X]) (dp : ℕ) : Option ℕ :=
  if p2.natDegree ≠ p3.natDegree ∨ p2.leadingCoeff ≠ p3.leadingCoeff then
    if p2.natDegree ≥ p3.natDegree ∧ dp ≥ p2.natDegree then some (dp - p2.natDegree)
    else if p3.natDegree > p2.natDegree ∧ dp ≥ p3.natDegree then some (dp - p3.natDegree)
    else none
  else if p2.natDegree ≤ dp + 1 then some (dp + 1 - p2.natDegree) else none

/-- The generic polynomial (src/zeilberger.cc:338-341). -/
def generic (n : ℕ) (u : ℕ → K) : K[X] := ∑ i ∈ Finset.range n, C (u i) * X ^ i

/-- `rr` (src/zeilberger.cc:346-353). -/
def rr (p2 p3 p b : K[X]) : K[X] := p2 * taylor 1 b - taylor (-1) p3 * b - p

/-- The degree in `k` of the polynomial `p`, in which the coefficients `a` of the recurrence are symbols. -/
def degP (order : ℕ) (p : (ℕ → K) → K[X]) : ℕ := (Finset.range (order + 1)).sup fun j => (p (Pi.single j 1)).natDegree

/-- `parametric_gosper_step_three` (src/zeilberger.cc:249-413) for the polynomial `p a`, where `a` are the unknown coefficients of
the recurrence: the solution and the coefficients.  Free unknowns, which the code replaces by 1, are part of the answer of
`lsolve`. -/
def stepThree (order : ℕ) (p2 p3 : K[X]) (p : (ℕ → K) → K[X]) : Option (K[X] × (ℕ → K)) :=
  (degX p2 p3 (degP order p)).bind fun d =>
    (O.lsolve (max (d + 1 + max p2.natDegree p3.natDegree) (degP order p) + (order + 1)) fun u a i =>
      (rr p2 p3 (p a) (generic (d + 1) u)).coeff i).bind fun sol =>
        if generic (d + 1) sol.1 = 0 then none else some (generic (d + 1) sol.1, sol.2)

/-- What `zeilberger_for_fixed_order` (src/zeilberger.cc:418-472) finds before the recurrence is built: the coefficients of the
recurrence, `p1`, `p2`, `p3` and the solution of step three. -/
def fixedOrder (s1 s2 : ℕ → K[X]) (r : K[X] × K[X]) (order : ℕ) : Option ((ℕ → K) × (K[X] × K[X] × K[X]) × K[X]) :=
  let rs := stepOne s2 r order
  let st := stepTwo O rs.1 rs.2
  (stepThree O order st.2.1 st.2.2 fun a => p0 s1 s2 order a * st.1).map fun y => (y.2, st, y.1)

/-- The right-hand side of the recurrence (src/zeilberger.cc:480-488), where `x i` stands for `x(n + i)`. -/
def recurrence (order : ℕ) (a : ℕ → K) (x : ℕ → K) : K :=
  - ((List.range order).foldl (fun e (i : ℕ) => e + a (i + 1) * x (i + 1)) 0) / a 0

/-- The value given to the initial condition `x(i)` (src/zeilberger.cc:495-506). -/
def initialValue (F : ℤ → ℤ → K) (i : ℕ) : K := ∑ k ∈ Finset.Icc (0 : ℤ) 10, F i k

/-- The loop of `zeilberger_algorithm` (src/zeilberger.cc:533-541) from the order `i` on; `f` is
`zeilberger_for_fixed_order`.  `fuel` is the number of iterations left, for the termination only. -/
def tryOrders {α : Type} (f : ℕ → Option α) (i : ℕ) : ℕ → Option (ℕ × α)
  | 0 => none
  | fuel + 1 =>
    if i < 10 then
      match f i with
      | some a => some (i, a)
      | none => if i = 10 - 1 then none else tryOrders f (i + 1) fuel
    else none

/-- `zeilberger_algorithm` (src/zeilberger.cc:525-546): the order found and the solution. -/
def algorithm {α : Type} (f : ℕ → Option α) : Option (ℕ × α) := tryOrders f 1 10

end

end Purrs.Zeilberger
