import Verif.Model.SumPoly
import Verif.Model.RealInterp
import Mathlib.Analysis.Calculus.IteratedDeriv.Defs

/-!
# Model of the trigonometric sums of `src/sum_poly.cc`

Simplification: these two routines differentiate symbolically (`r.diff(x, i)`, GiNaC); they
are modelled by the real value of what they return, with `diff` read as the derivative.
The result does not mention `x`, which is replaced by `alpha`.
-/

namespace Purrs

/-- The rational function in `x` differentiated by `sum_poly_times_exponentials_times_cos`
(src/sum_poly.cc:212-215), at `N = n`. -/
noncomputable def cosBase (n : ℕ) (θ x : ℝ) : ℝ :=
  (x ^ (n + 2) * Real.cos (n * θ) - x ^ (n + 1) * Real.cos ((n + 1) * θ) + (1 - x * Real.cos θ))
    / (x ^ 2 - 2 * x * Real.cos θ + 1)

/-- `sum_poly_times_exponentials_times_cos(p, x, N, alpha, theta)` (src/sum_poly.cc:199-225). -/
noncomputable def sumPolyCos (I : Interp ℝ) (ρ : String → ℝ) (x N : String) (cs : List Expr)
    (alpha theta : Expr) (n : ℕ) : ℝ :=
  if theta = .num 0 then eval I ρ (sumPolyTimesExponentials x N cs alpha)
  else ((List.range (polyDegree cs + 1)).map fun (i : Nat) =>
    eval I ρ alpha ^ i * iteratedDeriv i (cosBase n (eval I ρ theta)) (eval I ρ alpha)
      * eval I ρ (polyCoeff (polyDec x cs) i)).sum

/-- The rational function in `x` differentiated by `sum_poly_times_exponentials_times_sin`
(src/sum_poly.cc:244-247). -/
noncomputable def sinBase (n : ℕ) (θ x : ℝ) : ℝ :=
  (x ^ (n + 2) * Real.sin (n * θ) - x ^ (n + 1) * Real.sin ((n + 1) * θ) - x * Real.sin θ)
    / (x ^ 2 - 2 * x * Real.cos θ + 1)

/-- `sum_poly_times_exponentials_times_sin(p, x, N, alpha, theta)` (src/sum_poly.cc:232-256). -/
noncomputable def sumPolySin (I : Interp ℝ) (ρ : String → ℝ) (x : String) (cs : List Expr)
    (alpha theta : Expr) (n : ℕ) : ℝ :=
  if theta = .num 0 then 0
  else ((List.range (polyDegree cs + 1)).map fun (i : Nat) =>
    eval I ρ alpha ^ i * iteratedDeriv i (sinBase n (eval I ρ theta)) (eval I ρ alpha)
      * eval I ρ (polyCoeff (polyDec x cs) i)).sum

end Purrs
