import Verif.Model.SumTrig
import Verif.Props.SumPoly
import Mathlib.Analysis.Calculus.IteratedDeriv.Lemmas
import Mathlib.Analysis.Calculus.Deriv.Polynomial

/-!
# C12: sums of polynomials times exponentials times cosines or sines
-/

namespace Purrs

open Finset Polynomial

/-- The polynomial `Σ_{j ≤ n} c_j X^j`. -/
noncomputable def trigPoly (c : ℕ → ℝ) (n : ℕ) : ℝ[X] := ∑ j ∈ range (n + 1), C (c j) * X ^ j

theorem cos_step (j : ℕ) (θ : ℝ) :
    Real.cos (((j : ℝ) + 2) * θ) = 2 * Real.cos θ * Real.cos (((j : ℝ) + 1) * θ) - Real.cos (j * θ) := by
  have h1 : ((j : ℝ) + 2) * θ = ((j : ℝ) + 1) * θ + θ := by ring
  have h2 : (j : ℝ) * θ = ((j : ℝ) + 1) * θ - θ := by ring
  rw [h1, h2, Real.cos_add, Real.cos_sub]; ring

theorem cos_sum (n : ℕ) (θ x : ℝ) :
    (∑ j ∈ range (n + 1), Real.cos (j * θ) * x ^ j) * (x ^ 2 - 2 * x * Real.cos θ + 1)
      = x ^ (n + 2) * Real.cos (n * θ) - x ^ (n + 1) * Real.cos ((n + 1) * θ) + (1 - x * Real.cos θ) := by
  induction n with
  | zero => simp; ring
  | succ n ih =>
    rw [sum_range_succ, add_mul, ih]
    have h := cos_step n θ
    push_cast
    have e : ((n : ℝ) + 1 + 1) = (n : ℝ) + 2 := by ring
    rw [e, h]
    ring

theorem denom_open (θ : ℝ) : IsOpen {x : ℝ | x ^ 2 - 2 * x * Real.cos θ + 1 ≠ 0} :=
  isOpen_ne_fun (by fun_prop) continuous_const

theorem iteratedDeriv_poly (P : ℝ[X]) (i : ℕ) (x : ℝ) :
    iteratedDeriv i (fun y => P.eval y) x = (derivative^[i] P).eval x := by
  induction i generalizing x with
  | zero => simp
  | succ i ih =>
    rw [iteratedDeriv_succ, Function.iterate_succ_apply']
    have : iteratedDeriv i (fun y => P.eval y) = fun y => (derivative^[i] P).eval y := funext ih
    rw [this, Polynomial.deriv]

theorem iterate_derivative_monomial (c : ℝ) (j i : ℕ) (x : ℝ) :
    x ^ i * (derivative^[i] (C c * X ^ j)).eval x = c * (ff (j : ℝ) i * x ^ j) := by
  rw [iterate_derivative_C_mul, iterate_derivative_X_pow_eq_natCast_mul]
  simp only [eval_mul, eval_C, eval_natCast, eval_pow, eval_X]
  rw [ff_nat, ← Nat.cast_mul, ← Nat.descFactorial_eq_factorial_mul_choose]
  by_cases h : i ≤ j
  · have : x ^ i * x ^ (j - i) = x ^ j := by rw [← pow_add]; congr 1; omega
    linear_combination c * (j.descFactorial i : ℝ) * this
  · rw [Nat.descFactorial_eq_zero_iff_lt.mpr (by omega)]; simp

theorem trigPoly_iter (c : ℕ → ℝ) (n i : ℕ) (x : ℝ) :
    x ^ i * (derivative^[i] (trigPoly c n)).eval x
      = ∑ j ∈ range (n + 1), c j * (ff (j : ℝ) i * x ^ j) := by
  unfold trigPoly
  rw [iterate_derivative_sum, eval_finsetSum, mul_sum]
  exact sum_congr rfl fun j _ => iterate_derivative_monomial _ _ _ _

/-- **C12, cosine.**  For every polynomial, every `alpha` and `theta` for which the closed
form is defined (denominator not zero), and every natural `n`, the closed form is
`Σ_{j=0}^{n} p(j) alpha^j cos(j theta)`. -/
theorem C12_cos (I : Interp ℝ) (ρ : String → ℝ) (x N : String) (hxN : x ≠ N) (cs : List Expr)
    (hc : Coeffs x cs) (alpha theta : Expr) (n : ℕ) (hN : ρ N = n)
    (hd : if theta = .num 0 then alpha = .num 1 ∨ eval I ρ alpha ≠ 1 else
      eval I ρ alpha ^ 2 - 2 * eval I ρ alpha * Real.cos (eval I ρ theta) + 1 ≠ 0) :
    sumPolyCos I ρ x N cs alpha theta n
      = ∑ j ∈ range (n + 1), polyVal I ρ cs j * eval I ρ alpha ^ j * Real.cos (j * eval I ρ theta) := by
  unfold sumPolyCos
  split
  · rename_i h
    rw [if_pos h] at hd
    rw [C10_sum_poly_times_exponentials I ρ x N hxN cs hc alpha hd n hN]
    subst h
    simp [eval]
  · rename_i h
    rw [if_neg h] at hd
    set a := eval I ρ alpha
    set θ := eval I ρ theta
    obtain ⟨_, _, h3⟩ := polyDec_spec I ρ x cs hc
    have hev : (cosBase n θ) =ᶠ[nhds a]
        fun y => (trigPoly (fun j => Real.cos (j * θ)) n).eval y := by
      filter_upwards [(denom_open θ).mem_nhds hd] with y hy
      have := cos_sum n θ y
      unfold cosBase
      rw [← this, mul_div_cancel_right₀ _ hy]
      simp [trigPoly, eval_finsetSum]
    rw [list_sum_range]
    simp only [h3, sum_mul]
    rw [sum_comm]
    apply sum_congr rfl
    intro i _
    rw [hev.iteratedDeriv_eq, iteratedDeriv_poly, trigPoly_iter, sum_mul]
    apply sum_congr rfl
    intro j _
    ring

/-- A concrete instance: `Σ (1 + 2 j) cos j`. -/
example (n : ℕ) : sumPolyCos (realInterp id) (fun s => if s = "n" then (n : ℝ) else 0) "x" "n"
    [.num 1, .num 2] (.num 2) (.num 1) n
      = ∑ j ∈ range (n + 1), polyVal (realInterp id) (fun s => if s = "n" then (n : ℝ) else 0)
          [.num 1, .num 2] j * 2 ^ j * Real.cos (j * 1) := by
  have := C12_cos (realInterp id) (fun s => if s = "n" then (n : ℝ) else 0) "x" "n" (by decide)
    [.num 1, .num 2] (by simp [Coeffs, isScalarRep, hasSumOrProd]) (.num 2) (.num 1) n (by simp)
    (by
      simp [eval]
      have := Real.cos_le_one 1
      nlinarith)
  rw [this]
  simp [eval]

/-- **C12, sine, partial**: right when `theta` is zero.  Missing: everything else, which is
wrong, see the next theorem. -/
theorem C98_sin_partial (I : Interp ℝ) (ρ : String → ℝ) (x : String) (cs : List Expr)
    (alpha : Expr) (n : ℕ) :
    sumPolySin I ρ x cs alpha (.num 0) n
      = ∑ j ∈ range (n + 1), polyVal I ρ cs j * eval I ρ alpha ^ j * Real.sin (j * 0) := by
  simp [sumPolySin]

/-- **C12 fails for the sine**: with `p = 1`, `alpha = 1`, `theta = π/2` the closed form has
the value 0 at `n = 1`, where the sum is `sin(π/2) = 1`. -/
theorem C98_sin_refuted (ρ : String → ℝ) :
    let θ : Expr := .mul [.num (1/2), .const "Pi"]
    sumPolySin (realInterp id) ρ "x" [.num 1] (.num 1) θ 1 = 0 ∧
    ∑ j ∈ range (1 + 1), polyVal (realInterp id) ρ [.num 1] j * 1 ^ j
      * Real.sin (j * eval (realInterp id) ρ θ) = 1 := by
  intro θ
  have hθ : eval (realInterp id) ρ θ = Real.pi / 2 := by
    simp [θ, eval, realInterp]; ring
  constructor
  · unfold sumPolySin
    rw [if_neg (by simp [θ]), hθ]
    simp [polyDegree, polyDec, polyCoeff, polyDecLoop, eval, sinBase]
    have : (1 + 1) * (Real.pi / 2) = Real.pi := by ring
    rw [this]
    simp
  · rw [hθ]
    simp [sum_range_succ, polyVal, eval]

end Purrs
