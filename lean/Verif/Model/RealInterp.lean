import Verif.Model.ExprLemmas
import Mathlib.Analysis.SpecialFunctions.Pow.Real
import Mathlib.Analysis.SpecialFunctions.Trigonometric.Basic
import Mathlib.Analysis.SpecialFunctions.Gamma.Basic
import Mathlib.Data.Int.Interval
import Mathlib.Algebra.Order.Round

/-!
# The standard real meaning of expressions (specification side)

`realInterp ξ` reads every function symbol with its usual real meaning and the unknown
`x(·)` as the function `ξ`.
-/

namespace Purrs

open Classical in
/-- Usual real meaning of the function symbols; unspecified applications are `0`. -/
noncomputable def realFn (ξ : ℝ → ℝ) : Fn → List ℝ → ℝ
  | .x, [a] => ξ a
  | .floor, [a] => (⌊a⌋ : ℤ)
  | .mod, [a, b] => a - b * (⌊a / b⌋ : ℤ)
  | .max, [a, b] => max a b
  | .min, [a, b] => min a b
  | .log, [a] => Real.log a
  | .exp, [a] => Real.exp a
  | .sin, [a] => Real.sin a
  | .cos, [a] => Real.cos a
  | .factorial, [a] => Real.Gamma (a + 1)
  | .sc, [a, b] => (⌊a / b ^ ⌊Real.log a / Real.log b⌋⌋ : ℤ)
  | .other f, [a] => if f = "tgamma" then Real.Gamma a else 0
  | _, _ => 0

/-- The usual real meaning of expressions with unknown `ξ`.  `sum`/`prod` range over the
integers between the (rounded) bounds and are empty if there is none. -/
noncomputable def realInterp (ξ : ℝ → ℝ) : Interp ℝ where
  const := fun c => if c = "Pi" then Real.pi else 0
  pw := fun a b => a ^ b
  fn := realFn ξ
  bind := fun k lo up f =>
    match k with
    | .sum => ∑ i ∈ Finset.Icc ⌈lo⌉ ⌊up⌋, f i
    | .prod => ∏ i ∈ Finset.Icc ⌈lo⌉ ⌊up⌋, f i
  pw_int := fun a z => Real.rpow_intCast a z
  one_pw := fun a => Real.one_rpow a

end Purrs
