import Verif.Model.SimplifyFact
import Verif.Model.SimplifySum
import Verif.Model.SimplifyOut
import Verif.Model.SimplifyLog

/-!
# All simplifications: `src/simplify.cc:1976-1986` and `2040-2049`

`simplify_numer_denom` and `simplify_all`, with the same operations of GiNaC in all stages.
-/

namespace Purrs.SimplifyAll

/-- The operations that are not modelled: GiNaC's `expand`, `numer_denom`, the tests of `Model/SimplifyPow.lean`, and the
operations of `Model/SimplifySum.lean`. -/
structure Ops where
  expand : Expr → Expr
  numer : Expr → Expr
  denom : Expr → Expr
  perfect : ℚ → ℚ → Bool
  opposite : Expr → Expr → Bool
  coeffs : String → Expr → List Expr
  gosper : String → Expr → ℚ → Expr → Option Expr
  k : String
  v : String

/-- `simplify_numer_denom` (src/simplify.cc:1976-1986). -/
def Ops.nd (O : Ops) (e : Expr) : Expr := mulE (O.expand (O.numer e)) (powE (O.expand (O.denom e)) (.num (-1)))

/-- The operations used by the rules for powers (src/simplify.cc:376 calls `simplify_numer_denom`). -/
def Ops.pow (O : Ops) : SimplifyPow.Ops := ⟨O.expand, O.nd, O.perfect, O.opposite⟩

/-- The operations used by the rules for sums. -/
def Ops.sum (O : Ops) : SimplifySum.Ops := ⟨O.expand, O.coeffs, O.gosper, O.k, O.v⟩

/-- The operations used by the rules for logarithms. -/
def Ops.log (O : Ops) : SimplifyLog.Ops := ⟨O.expand, O.numer, O.denom, O.pow⟩

/-- `simplify_all` (src/simplify.cc:2040-2049); the number bounds the depth of the nested calls in the stages. -/
def simplifyAll (O : Ops) (n : String) (k : ℕ) (e : Expr) : Option Expr :=
  (SimplifyFact.simplifyBFE O.expand k (O.nd e)).bind fun e1 =>
    (SimplifySum.collectSumsTop O.sum n k e1).bind fun e2 =>
      (SimplifyOut.simplifyForOutput O.pow n false k e2).map fun e3 =>
        SimplifyLog.simplifyLogarithm O.log n k k e3

end Purrs.SimplifyAll
