import Mathlib.Algebra.Polynomial.FieldDivision
import Mathlib.LinearAlgebra.Matrix.Determinant.Basic

/-!
# Model of the operations on polynomials with rational coefficients of `src/util.cc`

Simplifications: a polynomial with rational coefficients is a `Polynomial ℚ`, as in `Verif.Model.AlgEq`; `expand()` and the
attempts to bring polynomials to that form (`factorize`, src/util.cc:398-413) are then omitted.  `degree`, `lcoeff`,
`denominator` of a number, `content`, `unit`, `primpart`, `prem` and `determinant` are GiNaC's; `unsigned int` has 32 bits;
`none` is an exception.
-/

namespace Purrs.Resultant

open Polynomial

noncomputable section

/-- `t_lcm` of `convert_to_integer_polynomial` (src/util.cc:283-285, 303-305). -/
def tLcm (p : ℚ[X]) : ℕ :=
  (List.range (p.natDegree + 1)).foldl (fun t i => Nat.lcm t (p.coeff i).den) (p.coeff p.natDegree).den

/-- GiNaC's `content(x)` of a polynomial with integer coefficients. -/
def content (p : ℚ[X]) : ℕ := (List.range (p.natDegree + 1)).foldl (fun t i => Nat.gcd t (p.coeff i).num.natAbs) 0

/-- GiNaC's `unit(x)`: the sign of the leading coefficient. -/
def unit (p : ℚ[X]) : ℚ := if p.leadingCoeff < 0 then -1 else 1

/-- GiNaC's `primpart(x)`. -/
def primpart (p : ℚ[X]) : ℚ[X] :=
  if p = 0 then 0 else if p.natDegree = 0 then 1 else p * C ((content p : ℚ) * unit p)⁻¹

/-- `convert_to_integer_polynomial` with two arguments (src/util.cc:276-287). -/
def toInteger (p : ℚ[X]) : ℚ[X] := primpart (p * C (tLcm p : ℚ))

/-- `convert_to_integer_polynomial` with the factor (src/util.cc:295-310); the power `0^(-1)` is an exception. -/
def toIntegerFactor (p : ℚ[X]) : Option (ℚ[X] × ℚ) :=
  if (toInteger p).leadingCoeff = 0 then none
  else some (toInteger p, p.leadingCoeff * (toInteger p).leadingCoeff ^ (-1 : ℤ))

/-- The elements of one row of the Sylvester matrix of `p`: `k` zeros, the coefficients of `p` from the leading one on, zeros
(src/util.cc:343-348, 351-356). -/
def sylvesterRow (p : ℚ[X]) (deg size k : ℕ) : List ℚ :=
  List.replicate k 0 ++ (List.range (deg + 1)).map (fun j => p.coeff (deg - j)) ++ List.replicate (size - (k + deg + 1)) 0

/-- `elements_sylvester_matrix` (src/util.cc:341-357). -/
def sylvesterElements (p q : ℚ[X]) : List ℚ :=
  (List.range q.natDegree).flatMap (fun i => sylvesterRow p p.natDegree (p.natDegree + q.natDegree) i) ++
    (List.range p.natDegree).flatMap (fun i => sylvesterRow q q.natDegree (p.natDegree + q.natDegree) i)

/-- `sylvester_matrix_resultant` (src/util.cc:333-360): the constructor of `Matrix` takes the elements row by row. -/
def sylvesterResultant (p q : ℚ[X]) : ℚ :=
  Matrix.det fun i j : Fin (p.natDegree + q.natDegree) =>
    (sylvesterElements p q).getD ((i : ℕ) * (p.natDegree + q.natDegree) + j) 0

/-- The difference of two `unsigned int`, plus `c`. -/
def usub (a b c : ℕ) : ℕ := (a + 2 ^ 32 - b + c) % 2 ^ 32

/-- GiNaC's `prem(g, f, x)`: the pseudo-remainder, and `g` if its degree is smaller. -/
def prem (g f : ℚ[X]) : ℚ[X] :=
  if g.natDegree < f.natDegree then g else C (f.leadingCoeff ^ (g.natDegree - f.natDegree + 1)) * (g % f)

/-- `r` (src/util.cc:414-418). -/
def remainder (f g : ℚ[X]) : ℚ[X] := prem g f * C (f.leadingCoeff ^ usub g.natDegree f.natDegree 1)⁻¹

/-- The factor of an iteration (src/util.cc:419-425). -/
def stepFactor (f g : ℚ[X]) : ℚ :=
  f.leadingCoeff ^ usub g.natDegree (remainder f g).natDegree 0 *
    (if (f.natDegree * (remainder f g).natDegree) % 2 ^ 32 % 2 ≠ 0 then -1 else 1)

theorem remainder_lt {f g : ℚ[X]} (hf : 0 < f.natDegree) : (remainder f g).natDegree < f.natDegree := by
  unfold remainder prem
  refine lt_of_le_of_lt (natDegree_mul_C_le _ _) ?_
  split_ifs with h
  · exact h
  · exact lt_of_le_of_lt (natDegree_C_mul_le _ _) (natDegree_mod_lt g (by omega))

/-- The loop of `resultant` (src/util.cc:390-430) with the last rule (src/util.cc:432). -/
def euclid (f g : ℚ[X]) (res : ℚ) : ℚ :=
  if _h : 0 < f.natDegree then euclid (remainder f g) f (res * stepFactor f g)
  else res * f.coeff 0 ^ g.natDegree
termination_by f.natDegree
decreasing_by exact remainder_lt _h

/-- `resultant` (src/util.cc:374-435). -/
def resultant (p q : ℚ[X]) : ℚ :=
  if p.natDegree = 0 ∨ q.natDegree = 0 then p.leadingCoeff ^ q.natDegree * q.leadingCoeff ^ p.natDegree
  else euclid p q 1

end

end Purrs.Resultant
