import Verif.Model.IntUtil
import Verif.Model.Resultant
import Mathlib.Algebra.Polynomial.Taylor

/-!
# Gosper's algorithm (src/gosper.cc)

Simplifications: a polynomial in the index with rational coefficients is a `Polynomial ℚ`, so that `expand()` is the identity, and
`taylor k p` is `p.substitute(m, m + k)`; expressions that contain parameters are not modelled.  The term `t(m)` is the function
of its values; the simplifiers of src/gosper.cc:68-71, 313 and 337 are assumed not to change values, and the ratio `t(m+1)/t(m)`
is given by its numerator and denominator (src/gosper.cc:147).  GiNaC's `gcd`, the resultant with a symbolic shift
(src/gosper.cc:92-105, after `primpart` and the conversion to integer coefficients) and `lsolve` are parameters.
-/

namespace Purrs.Gosper

open Polynomial Purrs.Resultant

noncomputable section

open Classical

/-- The operations that are not modelled; `lsolve N F` solves the `N` linear equations `F u i = 0` for the unknowns `u`. -/
structure Ops where
  gcd : ℚ[X] → ℚ[X] → ℚ[X]
  res : ℚ[X] → ℚ[X] → ℤ[X]
  lsolve : ℕ → ((ℕ → ℚ) → ℕ → ℚ) → Option (ℕ → ℚ)

variable (O : Ops)

/-- `compute_resultant_and_its_roots` (src/gosper.cc:89-133); `none` is the answer `false`.  `tcoeff` is the lowest coefficient
that is not zero, so that the loop of src/gosper.cc:114-121 is only entered, and then does not end, if the resultant is zero:
`none` as well. -/
def integerRoots (R : ℤ[X]) : Option (List ℕ) :=
  if R.trailingCoeff = 0 then none
  else (findDivisors R.trailingCoeff.natAbs).map fun l =>
    (l.reverse.filter fun d : ℕ => R.eval (d : ℤ) = 0).mergeSort (fun a b => decide (a ≤ b))

/-- `general_gcd` (src/util.cc:75-80). -/
def generalGcd (p q : ℚ[X]) : ℚ[X] := O.gcd (toInteger p) (toInteger q)

/-- One iteration of the loop of `gosper_step_two` (src/gosper.cc:168-176), for the root `i` and `a`, `b`, `c`. -/
def reduce (st : ℚ[X] × ℚ[X] × ℚ[X]) (i : ℕ) : ℚ[X] × ℚ[X] × ℚ[X] :=
  let s := generalGcd O st.1 (taylor (i : ℚ) st.2.1)
  (st.1 / s, st.2.1 / taylor (-(i : ℚ)) s, (List.range i).foldl (fun c (j : ℕ) => c * taylor (-((j : ℚ) + 1)) s) st.2.2)

/-- `is_integer_polynomial`. -/
def isIntPoly (p : ℚ[X]) : Prop := ∀ i, (p.coeff i).den = 1

/-- The conversion of `p` to integer coefficients, with the change of the other polynomial (src/gosper.cc:182-193). -/
def toInt (p q : ℚ[X]) : Option (ℚ[X] × ℚ[X]) :=
  if isIntPoly p then some (p, q)
  else (toIntegerFactor p).map fun r => (r.1 * C (r.2.num : ℚ), q * C (r.2.den : ℚ))

/-- `gosper_step_two` (src/gosper.cc:141-199) for the ratio `f/g`: `a`, `b` and `c`. -/
def stepTwo (f g : ℚ[X]) : Option (ℚ[X] × ℚ[X] × ℚ[X]) :=
  (integerRoots (O.res f g)).bind fun roots =>
    let st := roots.foldl (reduce O) (f * C f.leadingCoeff⁻¹, g * C g.leadingCoeff⁻¹, 1)
    (toInt (st.1 * C (f.leadingCoeff * g.leadingCoeff⁻¹)) st.2.1).bind fun ab =>
      (toInt ab.2 ab.1).map fun ba => (ba.2, ba.1, st.2.2)

/-- GiNaC's `coeff(m, d - 1)`, which is zero for `d = 0`. -/
def coeffBelow (p : ℚ[X]) (d : ℕ) : ℚ := if d = 0 then 0 else p.coeff (d - 1)

/-- `possible_deg` (src/gosper.cc:285-292). -/
def possibleDeg (a b c : ℚ[X]) : ℤ :=
  let q := (coeffBelow (taylor (-1) b) a.natDegree - coeffBelow a a.natDegree) * a.leadingCoeff⁻¹
  let d : ℤ := c.natDegree - a.natDegree + 1
  if q.den = 1 ∧ 0 ≤ q ∧ (d : ℚ) < q then q.num else d

/-- The degree of `x` (src/gosper.cc:268-295); `none` is `-1`. -/
def degX (a b c : ℚ[X]) : Option ℕ :=
  if a.natDegree ≠ b.natDegree ∨ a.leadingCoeff ≠ b.leadingCoeff then
    if a.natDegree ≥ b.natDegree ∧ c.natDegree ≥ a.natDegree then some (c.natDegree - a.natDegree)
    else if b.natDegree > a.natDegree ∧ c.natDegree ≥ b.natDegree then some (c.natDegree - b.natDegree)
    else none
  else if 0 ≤ possibleDeg a b c then some (possibleDeg a b c).toNat else none

/-- The generic polynomial with `n` coefficients (src/gosper.cc:223-226). -/
def generic (n : ℕ) (u : ℕ → ℚ) : ℚ[X] := ∑ i ∈ Finset.range n, C (u i) * X ^ i

/-- `rr` (src/gosper.cc:228-233). -/
def rr (a b c x : ℚ[X]) : ℚ[X] := a * taylor 1 x - taylor (-1) b * x - c

/-- `find_polynomial_solution` (src/gosper.cc:201-252). -/
def findSolution (d : ℕ) (a b c : ℚ[X]) : Option ℚ[X] :=
  (O.lsolve (max (d + 1 + max a.natDegree b.natDegree) c.natDegree) fun u i => (rr a b c (generic (d + 1) u)).coeff i).map
    (generic (d + 1))

/-- `gosper_step_three` (src/gosper.cc:265-301). -/
def stepThree (a b c : ℚ[X]) : Option ℚ[X] := (degX a b c).bind fun d => findSolution O d a b c

/-- The answers of `gosper_algorithm` (src/gosper.cc:365-391) for the ratio `f/g` of consecutive terms: `none` is `false`,
`some none` the symbolic sum, and otherwise the polynomials `b`, `c` and `x` of which the closed form consists. -/
def gosper (f g : ℚ[X]) : Option (Option (ℚ[X] × ℚ[X] × ℚ[X])) :=
  (stepTwo O f g).map fun abc => (stepThree O abc.1 abc.2.1 abc.2.2).map fun x => (abc.2.1, abc.2.2, x)

variable {K : Type} [Field K]

/-- The value of a polynomial at an integer. -/
def at' (p : ℚ[X]) (k : ℤ) : K := ((p.eval (k : ℚ) : ℚ) : K)

/-- `z_m` (src/gosper.cc:311-313). -/
def zVal (t : ℤ → K) (b c x : ℚ[X]) (k : ℤ) : K := at' b (k - 1) * at' x k * t k * (at' c k)⁻¹

/-- `gosper_step_four` (src/gosper.cc:307-339) for the upper limit `m + num`. -/
def closedForm (t : ℤ → K) (b c x : ℚ[X]) (lower num m : ℤ) : K := zVal t b c x (m + num + 1) - zVal t b c x lower

end

end Purrs.Gosper
