import Verif.Model.Functional
import Verif.Model.Classify

/-!
# Model of the end of the classification: the first valid index (src/rr_classifier.cc:1512-1563)

Simplifications: `denominator()` (without expansion) is a parameter, as are the operations of `find_domain_in_N` (see
`Verif.Model.Functional`); `to_unsigned_int()` of the index, which is a non-negative integer, is exact (C110 is about this conversion); the
map of the homogeneous terms is read in the order of the list.  Failure is always `CL_TOO_COMPLEX`.
-/

namespace Purrs.FirstIndex

open Purrs.Functional (Env findDomain)
open Purrs.Classify (St)

/-- The condition on the denominator of the inhomogeneous term (src/rr_classifier.cc:1526-1535): the new `z`, `none` on failure. -/
def inhomDom (E : Env) (den : Expr → Expr) (n : String) (fuel : ℕ) (st : St) (z : ℤ) : Option ℤ :=
  if st.inhom = .num 0 then some z
  else if hasParameters n (den st.inhom) then none
  else if (findDomain E n fuel (den st.inhom) z).1 then some (findDomain E n fuel (den st.inhom) z).2 else none

/-- The condition on the coefficient (src/rr_classifier.cc:1536-1543), only for the order 1 and variable coefficients. -/
def coeffDom (E : Env) (n : String) (fuel : ℕ) (st : St) (z : ℤ) : Option ℤ :=
  if st.ty = .linVar ∧ st.order = 1 then
    if hasParameters n (st.coeffs.getD 1 (.num 0)) then none
    else if (findDomain E n fuel (st.coeffs.getD 1 (.num 0)) z).1 then some (findDomain E n fuel (st.coeffs.getD 1 (.num 0)) z).2 else none
  else some z

/-- The coefficients of a functional equation (src/rr_classifier.cc:1550-1556). -/
def homogDom (E : Env) (n : String) (fuel : ℕ) : List (ℚ × Expr) → ℤ → Option ℤ
  | [], z => some z
  | t :: l, z => if (findDomain E n fuel t.2 z).1 then homogDom E n fuel l (findDomain E n fuel t.2 z).2 else none

/-- The first valid index (src/rr_classifier.cc:1520-1559): `none` is `CL_TOO_COMPLEX`. -/
def firstIndex (E : Env) (den : Expr → Expr) (n : String) (fuel : ℕ) (st : St) : Option ℕ :=
  match st.ty with
  | .functional => (homogDom E n fuel st.homog 0).map fun z => (max z 1).toNat
  | _ =>
    if 0 < st.order then ((inhomDom E den n fuel st 0).bind fun z => coeffDom E n fuel st z).map Int.toNat
    else some 0

end Purrs.FirstIndex
