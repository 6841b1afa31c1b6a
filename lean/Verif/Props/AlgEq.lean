import Verif.Model.AlgEq
import Mathlib.Analysis.SpecialFunctions.Pow.Real
import Mathlib.Tactic.LinearCombination
import Mathlib.Tactic.FieldSimp
import Mathlib.Tactic.NormNum
import Mathlib.Tactic.Positivity

/-!
# C07: the closed formulas for degree 2, 3 and 4 give all the roots, with multiplicity

Each theorem says that the polynomial is the product of the linear factors of the values returned.
-/

namespace Purrs.AlgEq

open Polynomial

/-! ### Quadratic -/

theorem half_sq (z : ℂ) : (z ^ (1 / 2 : ℂ)) ^ 2 = z := by
  have := Complex.cpow_nat_inv_pow z (n := 2) (by norm_num)
  rw [show (1 / 2 : ℂ) = ((2 : ℕ) : ℂ)⁻¹ by norm_num]; exact this

theorem third_cube (z : ℂ) : (z ^ (1 / 3 : ℂ)) ^ 3 = z := by
  have := Complex.cpow_nat_inv_pow z (n := 3) (by norm_num)
  rw [show (1 / 3 : ℂ) = ((3 : ℕ) : ℂ)⁻¹ by norm_num]; exact this

theorem split2 {u v b c : ℂ} (h1 : u + v = -b) (h2 : u * v = c) :
    (X - C u) * (X - C v) = X ^ 2 + C b * X + C c := by
  have e1 : C u + C v = -C b := by rw [← C_add, h1, C_neg]
  have e2 : C u * C v = C c := by rw [← C_mul, h2]
  linear_combination (-X) * e1 + e2

theorem split3 {u v w a b c : ℂ} (h1 : u + v + w = -a) (h2 : u * v + v * w + u * w = b)
    (h3 : u * v * w = -c) :
    (X - C u) * (X - C v) * (X - C w) = X ^ 3 + C a * X ^ 2 + C b * X + C c := by
  have e1 : C u + C v + C w = -C a := by rw [← C_add, ← C_add, h1, C_neg]
  have e2 : C u * C v + C v * C w + C u * C w = C b := by
    rw [← C_mul, ← C_mul, ← C_mul, ← C_add, ← C_add, h2]
  have e3 : C u * C v * C w = -C c := by rw [← C_mul, ← C_mul, h3, C_neg]
  linear_combination (-X ^ 2) * e1 + X * e2 - e3

theorem split4 {u v w z a b c d : ℂ} (h1 : u + v + w + z = -a)
    (h2 : u * v + u * w + u * z + v * w + v * z + w * z = b)
    (h3 : u * v * w + u * v * z + u * w * z + v * w * z = -c) (h4 : u * v * w * z = d) :
    (X - C u) * (X - C v) * (X - C w) * (X - C z)
      = X ^ 4 + C a * X ^ 3 + C b * X ^ 2 + C c * X + C d := by
  have e1 : C u + C v + C w + C z = -C a := by simp only [← C_add, ← C_neg, h1]
  have e2 : C u * C v + C u * C w + C u * C z + C v * C w + C v * C z + C w * C z = C b := by
    simp only [← C_mul, ← C_add, h2]
  have e3 : C u * C v * C w + C u * C v * C z + C u * C w * C z + C v * C w * C z = -C c := by
    simp only [← C_mul, ← C_add, ← C_neg, h3]
  have e4 : C u * C v * C w * C z = C d := by simp only [← C_mul, h4]
  linear_combination (-X ^ 3) * e1 + X ^ 2 * e2 - X * e3 + e4

theorem solve2_vieta (b c : ℂ) :
    (solve2 b c).1 + (solve2 b c).2 = -b ∧ (solve2 b c).1 * (solve2 b c).2 = c := by
  have h := half_sq (b * b - 4 * c)
  unfold solve2
  constructor
  · ring
  · simp only []
    linear_combination (-1 / 4) * h

/-- The two values returned for `x² + b x + c = 0` are all its roots, with multiplicity. -/
theorem C07_quadratic (b c : ℂ) :
    (X - C (solve2 b c).1) * (X - C (solve2 b c).2) = X ^ 2 + C b * X + C c :=
  split2 (solve2_vieta b c).1 (solve2_vieta b c).2

/-! ### Cubic -/

/-- `cubicRoot` of a non-negative real number is its real cube root. -/
theorem cubicRoot_nonneg {r : ℝ} (h : 0 ≤ r) : cubicRoot (r : ℂ) = ((r ^ (1 / 3 : ℝ) : ℝ) : ℂ) := by
  unfold cubicRoot
  rw [Complex.ofReal_cpow h]; norm_num

theorem rpow_third_cube {r : ℝ} (h : 0 ≤ r) : (r ^ (1 / 3 : ℝ)) ^ 3 = r := by
  rw [← Real.rpow_natCast, ← Real.rpow_mul h]; norm_num

theorem cube_root_mul {a b q : ℝ} (ha : 0 ≤ a) (hb : 0 ≤ b) (hq : 0 ≤ q) (h : a * b = q ^ 3) :
    a ^ (1 / 3 : ℝ) * b ^ (1 / 3 : ℝ) = q := by
  rw [← Real.mul_rpow ha hb, h, ← Real.rpow_natCast, ← Real.rpow_mul hq]; norm_num

/-- The square root of a non-negative rational, as the code computes it, is the real one. -/
theorem half_real {d : ℚ} (h : 0 ≤ d) : ((d : ℂ) ^ (1 / 2 : ℂ)) = ((√(d : ℝ) : ℝ) : ℂ) := by
  rw [Real.sqrt_eq_rpow, Complex.ofReal_cpow (by exact_mod_cast h)]; norm_num

/-- The two cube roots of the non-trigonometric case: `S³ + T³ = 2 R`, `S T = -Q`. -/
theorem cardano {Q R : ℝ} (hd : 0 ≤ Q ^ 3 + R ^ 2) :
    let sd := √(Q ^ 3 + R ^ 2)
    let S := if Q ≥ 0 then cubicRoot ((R + sd : ℝ) : ℂ) else
      if R < 0 then -cubicRoot ((-(R + sd) : ℝ) : ℂ) else cubicRoot ((R + sd : ℝ) : ℂ)
    let T := if Q ≥ 0 then -cubicRoot ((-(R - sd) : ℝ) : ℂ) else
      if R < 0 then -cubicRoot ((-(R - sd) : ℝ) : ℂ) else cubicRoot ((R - sd : ℝ) : ℂ)
    (∃ s t : ℝ, S = s ∧ T = t ∧ s ^ 3 = R + sd ∧ t ^ 3 = R - sd ∧ s * t = -Q) := by
  intro sd S T
  have hsd : sd ^ 2 = Q ^ 3 + R ^ 2 := Real.sq_sqrt hd
  have hs0 : 0 ≤ sd := Real.sqrt_nonneg _
  have hAB : (R + sd) * (R - sd) = -Q ^ 3 := by linear_combination -hsd
  by_cases hQ : Q ≥ 0
  · have hA : 0 ≤ R + sd := by
      have : |R| ≤ sd := Real.abs_le_sqrt (by nlinarith [pow_nonneg hQ 3])
      linarith [neg_abs_le R]
    have hB : 0 ≤ -(R - sd) := by
      have : |R| ≤ sd := Real.abs_le_sqrt (by nlinarith [pow_nonneg hQ 3])
      linarith [le_abs_self R]
    refine ⟨(R + sd) ^ (1 / 3 : ℝ), -((-(R - sd)) ^ (1 / 3 : ℝ)), ?_, ?_, rpow_third_cube hA, ?_, ?_⟩
    · simp only [S, if_pos hQ]; rw [cubicRoot_nonneg hA]
    · simp only [T, if_pos hQ]; rw [cubicRoot_nonneg hB]; push_cast; ring
    · have := rpow_third_cube hB
      rw [neg_pow, this]; ring
    · have := cube_root_mul hA hB hQ (by linear_combination -hAB)
      linear_combination -this
  · have hQ' : Q < 0 := not_le.mp hQ
    have hQ3 : Q ^ 3 < 0 := by
      have := pow_pos (neg_pos.mpr hQ') 3
      nlinarith
    have hle : sd ≤ |R| := by
      rw [← Real.sqrt_sq_eq_abs]; exact Real.sqrt_le_sqrt (by linarith)
    by_cases hR : R < 0
    · rw [abs_of_neg hR] at hle
      have hA : 0 ≤ -(R + sd) := by linarith
      have hB : 0 ≤ -(R - sd) := by linarith
      refine ⟨-((-(R + sd)) ^ (1 / 3 : ℝ)), -((-(R - sd)) ^ (1 / 3 : ℝ)), ?_, ?_, ?_, ?_, ?_⟩
      · simp only [S, if_neg hQ, if_pos hR]; rw [cubicRoot_nonneg hA]; push_cast; ring
      · simp only [T, if_neg hQ, if_pos hR]; rw [cubicRoot_nonneg hB]; push_cast; ring
      · rw [neg_pow, rpow_third_cube hA]; ring
      · rw [neg_pow, rpow_third_cube hB]; ring
      · have := cube_root_mul hA hB (neg_nonneg.mpr hQ'.le) (by linear_combination hAB)
        linear_combination this
    · have hR' : 0 ≤ R := not_lt.mp hR
      rw [abs_of_nonneg hR'] at hle
      have hA : 0 ≤ R + sd := by linarith
      have hB : 0 ≤ R - sd := by linarith
      refine ⟨(R + sd) ^ (1 / 3 : ℝ), (R - sd) ^ (1 / 3 : ℝ), ?_, ?_, rpow_third_cube hA,
        rpow_third_cube hB, ?_⟩
      · simp only [S, if_neg hQ, if_neg hR]; rw [cubicRoot_nonneg hA]
      · simp only [T, if_neg hQ, if_neg hR]; rw [cubicRoot_nonneg hB]
      · exact cube_root_mul hA hB (neg_nonneg.mpr hQ'.le) (by linear_combination hAB)

theorem cos_two_pi_third : Real.cos (2 * Real.pi / 3) = -1 / 2 := by
  rw [show 2 * Real.pi / 3 = Real.pi - Real.pi / 3 by ring, Real.cos_pi_sub, Real.cos_pi_div_three]
  norm_num

theorem sin_two_pi_third : Real.sin (2 * Real.pi / 3) = √3 / 2 := by
  rw [show 2 * Real.pi / 3 = Real.pi - Real.pi / 3 by ring, Real.sin_pi_sub, Real.sin_pi_div_three]

theorem cos_four_pi_third : Real.cos (4 * Real.pi / 3) = -1 / 2 := by
  rw [show 4 * Real.pi / 3 = Real.pi / 3 + Real.pi by ring, Real.cos_add_pi, Real.cos_pi_div_three]
  norm_num

theorem sin_four_pi_third : Real.sin (4 * Real.pi / 3) = -(√3 / 2) := by
  rw [show 4 * Real.pi / 3 = Real.pi / 3 + Real.pi by ring, Real.sin_add_pi, Real.sin_pi_div_three]

theorem solve3_trig {a1 a2 a3 : ℚ} (h : cubD a1 a2 a3 < 0) :
    let r := (solve3 a1 a2 a3).1
    r.1 + r.2.1 + r.2.2 = -(a1 : ℂ) ∧ r.1 * r.2.1 + r.2.1 * r.2.2 + r.1 * r.2.2 = a2
      ∧ r.1 * r.2.1 * r.2.2 = -(a3 : ℂ) := by
  set Q := cubQ a1 a2 with hQ
  set R := cubR a1 a2 a3 with hR
  have hd : (Q : ℝ) ^ 3 + (R : ℝ) ^ 2 < 0 := by
    have : ((cubD a1 a2 a3 : ℚ) : ℝ) < 0 := by exact_mod_cast h
    simp only [cubD, ← hQ, ← hR] at this; push_cast at this; nlinarith
  have hQ0 : (Q : ℝ) < 0 := by
    by_contra hc
    have := pow_nonneg (not_lt.mp hc) 3
    nlinarith [sq_nonneg (R : ℝ)]
  set s := √(-(Q : ℝ)) with hs
  have hs2 : s ^ 2 = -(Q : ℝ) := Real.sq_sqrt (by linarith)
  have hs0 : 0 < s := Real.sqrt_pos.mpr (by linarith)
  set θ := cubTheta a1 a2 a3 with hθ
  have hs3 : (Q : ℝ) * s = -s ^ 3 := by rw [show (Q : ℝ) = -s ^ 2 by linarith]; ring
  have harg : |-(R : ℝ) / ((Q : ℝ) * s)| ≤ 1 := by
    rw [hs3, neg_div_neg_eq, abs_div, div_le_one (by positivity), abs_of_pos (by positivity : 0 < s ^ 3)]
    apply abs_le_of_sq_le_sq _ (by positivity)
    have : (s ^ 3) ^ 2 = -(Q : ℝ) ^ 3 := by
      rw [← pow_mul, show 3 * 2 = 2 * 3 by norm_num, pow_mul, hs2]; ring
    linarith
  have hcos : Real.cos θ * s ^ 3 = R := by
    rw [hθ, cubTheta, ← hQ, ← hR, ← hs,
      Real.cos_arccos (abs_le.mp harg).1 (abs_le.mp harg).2, hs3]
    field_simp
  set c := Real.cos (θ / 3) with hc
  set t := Real.sin (θ / 3) with ht
  have h3 : Real.cos θ = 4 * c ^ 3 - 3 * c := by
    rw [hc, ← Real.cos_three_mul]; congr 1; ring
  have hct : t ^ 2 + c ^ 2 = 1 := Real.sin_sq_add_cos_sq _
  have e2 : Real.cos ((θ + 2 * Real.pi) / 3) = -c / 2 - t * √3 / 2 := by
    rw [add_div, Real.cos_add, cos_two_pi_third, sin_two_pi_third]; ring
  have e3 : Real.cos ((θ + 4 * Real.pi) / 3) = -c / 2 + t * √3 / 2 := by
    rw [add_div, Real.cos_add, cos_four_pi_third, sin_four_pi_third]; ring
  have w3 : √(3 : ℝ) ^ 2 = 3 := Real.sq_sqrt (by norm_num)
  set w := √(3 : ℝ) with hw
  have hQv : 9 * Q = 3 * a2 - a1 * a1 := by rw [hQ, cubQ]; ring
  have hRv : 54 * R = 9 * a1 * a2 - 27 * a3 - 2 * a1 * a1 * a1 := by rw [hR, cubR]; ring
  have hQv' : 9 * (Q : ℝ) = 3 * a2 - a1 * a1 := by exact_mod_cast congrArg (Rat.cast : ℚ → ℝ) hQv
  have hRv' : 54 * (R : ℝ) = 9 * a1 * a2 - 27 * a3 - 2 * a1 * a1 * a1 := by
    exact_mod_cast congrArg (Rat.cast : ℚ → ℝ) hRv
  have hval : (solve3 a1 a2 a3).1 =
      (((-(a1 / 3 : ℝ) + 2 * s * c : ℝ) : ℂ), ((-(a1 / 3 : ℝ) + 2 * s * (-c / 2 - t * w / 2) : ℝ) : ℂ),
        ((-(a1 / 3 : ℝ) + 2 * s * (-c / 2 + t * w / 2) : ℝ) : ℂ)) := by
    unfold solve3
    simp only [if_pos h, ← hQ, ← hR, ← hs, ← hθ, ← hc, e2, e3]
    push_cast
    rfl
  rw [hval]
  dsimp only
  have g3 : 4 * (s * c) ^ 3 - 3 * s ^ 2 * (s * c) = R := by
    rw [← hcos, h3]; ring
  refine ⟨?_, ?_, ?_⟩
  · exact_mod_cast (show (-(a1 / 3 : ℝ) + 2 * s * c) + (-(a1 / 3 : ℝ) + 2 * s * (-c / 2 - t * w / 2))
      + (-(a1 / 3 : ℝ) + 2 * s * (-c / 2 + t * w / 2)) = -(a1 : ℝ) by ring)
  · have : (-(a1 / 3 : ℝ) + 2 * s * c) * (-(a1 / 3 : ℝ) + 2 * s * (-c / 2 - t * w / 2))
      + (-(a1 / 3 : ℝ) + 2 * s * (-c / 2 - t * w / 2)) * (-(a1 / 3 : ℝ) + 2 * s * (-c / 2 + t * w / 2))
      + (-(a1 / 3 : ℝ) + 2 * s * c) * (-(a1 / 3 : ℝ) + 2 * s * (-c / 2 + t * w / 2)) = (a2 : ℝ) := by
      linear_combination (-s ^ 2 * t ^ 2) * w3 + (-3 * s ^ 2) * hct - 3 * hs2 + (1 / 3) * hQv'
    exact_mod_cast this
  · have : (-(a1 / 3 : ℝ) + 2 * s * c) * (-(a1 / 3 : ℝ) + 2 * s * (-c / 2 - t * w / 2))
      * (-(a1 / 3 : ℝ) + 2 * s * (-c / 2 + t * w / 2)) = -(a3 : ℝ) := by
      linear_combination (-(-(a1 / 3 : ℝ) + 2 * s * c) * s ^ 2 * t ^ 2) * w3
        + (-3 * s ^ 2 * (-(a1 / 3 : ℝ) + 2 * s * c)) * hct + 2 * g3 + a1 * hs2
        - (1 / 9) * a1 * hQv' + (1 / 27) * hRv'
    exact_mod_cast this

theorem half_three : ((3 : ℂ) ^ (1 / 2 : ℂ)) ^ 2 = 3 := half_sq 3

theorem solve3_card {a1 a2 a3 : ℚ} (h : ¬ cubD a1 a2 a3 < 0) :
    let r := (solve3 a1 a2 a3).1
    r.1 + r.2.1 + r.2.2 = -(a1 : ℂ) ∧ r.1 * r.2.1 + r.2.1 * r.2.2 + r.1 * r.2.2 = a2
      ∧ r.1 * r.2.1 * r.2.2 = -(a3 : ℂ) ∧ (∃ x : ℝ, r.1 = x)
      ∧ (cubD a1 a2 a3 = 0 → ∃ x y z : ℝ, r = (↑x, ↑y, ↑z)) := by
  set Q := cubQ a1 a2 with hQ
  set R := cubR a1 a2 a3 with hR
  have hdd : cubD a1 a2 a3 = Q ^ 3 + R ^ 2 := by simp only [cubD, ← hQ, ← hR]; ring
  have hd0 : (0 : ℚ) ≤ Q ^ 3 + R ^ 2 := by rw [← hdd]; exact not_lt.mp h
  have hd : (0 : ℝ) ≤ (Q : ℝ) ^ 3 + (R : ℝ) ^ 2 := by exact_mod_cast hd0
  have hsd : (((Q ^ 3 + R ^ 2 : ℚ) : ℂ)) ^ (1 / 2 : ℂ) = ((√((Q : ℝ) ^ 3 + (R : ℝ) ^ 2) : ℝ) : ℂ) := by
    rw [half_real hd0]; push_cast; rfl
  obtain ⟨s, t, hS, hT, hs3, ht3, hst⟩ := cardano hd
  set w := (3 : ℂ) ^ (1 / 2 : ℂ) with hw
  have w3 : w ^ 2 = 3 := half_three
  have hval : (solve3 a1 a2 a3).1 = ((s : ℂ) + t - ((a1 / 3 : ℚ) : ℂ),
      (-((s : ℂ) + t) / 2 - ((a1 / 3 : ℚ) : ℂ)) + ((s : ℂ) - t) * Complex.I * w / 2,
      (-((s : ℂ) + t) / 2 - ((a1 / 3 : ℚ) : ℂ)) - ((s : ℂ) - t) * Complex.I * w / 2) := by
    rw [← hS, ← hT]
    have h' : ¬ Q ^ 3 + R ^ 2 < 0 := by rw [← hdd]; exact h
    unfold solve3
    simp only [if_neg h', ← hQ, ← hR, ← hw, hdd, hsd]
    push_cast
    have c1 : (Q : ℝ) ≥ 0 ↔ Q ≥ 0 := by
      constructor <;> intro h' <;> exact_mod_cast h'
    have c2 : (R : ℝ) < 0 ↔ R < 0 := by
      constructor <;> intro h' <;> exact_mod_cast h'
    simp only [c1, c2]
  rw [hval]
  have hQv : 9 * Q = 3 * a2 - a1 * a1 := by rw [hQ, cubQ]; ring
  have hRv : 54 * R = 9 * a1 * a2 - 27 * a3 - 2 * a1 * a1 * a1 := by rw [hR, cubR]; ring
  have hQv' : 9 * (Q : ℂ) = 3 * a2 - a1 * a1 := by exact_mod_cast congrArg (Rat.cast : ℚ → ℂ) hQv
  have hRv' : 54 * (R : ℂ) = 9 * a1 * a2 - 27 * a3 - 2 * a1 * a1 * a1 := by
    exact_mod_cast congrArg (Rat.cast : ℚ → ℂ) hRv
  have hst' : (s : ℂ) * t = -Q := by exact_mod_cast congrArg (Complex.ofReal) hst
  have hsum : (s : ℂ) ^ 3 + (t : ℂ) ^ 3 = 2 * R := by
    have : s ^ 3 + t ^ 3 = 2 * (R : ℝ) := by rw [hs3, ht3]; ring
    exact_mod_cast congrArg (Complex.ofReal) this
  have hI : Complex.I ^ 2 = -1 := Complex.I_sq
  refine ⟨?_, ?_, ?_, ?_, ?_⟩
  · push_cast; ring
  · push_cast
    linear_combination (1 / 3) * hQv' - 3 * hst' - ((s : ℂ) - t) ^ 2 * w ^ 2 / 4 * hI
      + ((s : ℂ) - t) ^ 2 / 4 * w3
  · push_cast
    linear_combination (a1 * hst') + hsum + (1 / 27) * hRv' - a1 / 9 * hQv'
      - ((s : ℂ) + t - a1 / 3) * (((s : ℂ) - t) ^ 2 * w ^ 2 / 4 * hI)
      + ((s : ℂ) + t - a1 / 3) * (((s : ℂ) - t) ^ 2 / 4 * w3)
  · exact ⟨s + t - (a1 / 3 : ℚ), by push_cast; rfl⟩
  · intro h0
    have h0' : (Q : ℝ) ^ 3 + (R : ℝ) ^ 2 = 0 := by
      rw [hdd] at h0; exact_mod_cast h0
    have hst3 : s = t := by
      have : s ^ 3 = t ^ 3 := by rw [hs3, ht3, h0', Real.sqrt_zero]; ring
      exact (Odd.strictMono_pow (by decide : Odd 3)).injective this
    refine ⟨s + t - (a1 / 3 : ℚ), -(s + t) / 2 - (a1 / 3 : ℚ), -(s + t) / 2 - (a1 / 3 : ℚ), ?_⟩
    rw [hst3]
    push_cast
    simp

/-- The three values returned for `x³ + a₁ x² + a₂ x + a₃ = 0` are all its roots, with
multiplicity. -/
theorem C07_cubic (a1 a2 a3 : ℚ) :
    let r := (solve3 a1 a2 a3).1
    (X - C r.1) * (X - C r.2.1) * (X - C r.2.2)
      = X ^ 3 + C (a1 : ℂ) * X ^ 2 + C (a2 : ℂ) * X + C (a3 : ℂ) := by
  intro r
  by_cases h : cubD a1 a2 a3 < 0
  · obtain ⟨h1, h2, h3⟩ := solve3_trig h
    exact split3 h1 h2 h3
  · obtain ⟨h1, h2, h3, _⟩ := solve3_card h
    exact split3 h1 h2 h3

/-- The first value is real; all three are when the function says so. -/
theorem C07_cubic_real (a1 a2 a3 : ℚ) :
    let r := solve3 a1 a2 a3
    (∃ x : ℝ, r.1.1 = x) ∧ (r.2 = true → ∃ x y z : ℝ, r.1 = (↑x, ↑y, ↑z)) := by
  by_cases h : cubD a1 a2 a3 < 0
  · have : ∃ x y z : ℝ, (solve3 a1 a2 a3).1 = (↑x, ↑y, ↑z) := by
      unfold solve3
      simp only [if_pos h]
      exact ⟨-(a1 / 3 : ℚ) + 2 * √(-(cubQ a1 a2 : ℝ)) * Real.cos (cubTheta a1 a2 a3 / 3),
        -(a1 / 3 : ℚ) + 2 * √(-(cubQ a1 a2 : ℝ)) * Real.cos ((cubTheta a1 a2 a3 + 2 * Real.pi) / 3),
        -(a1 / 3 : ℚ) + 2 * √(-(cubQ a1 a2 : ℝ)) * Real.cos ((cubTheta a1 a2 a3 + 4 * Real.pi) / 3),
        by push_cast; rfl⟩
    obtain ⟨x, y, z, e⟩ := this
    exact ⟨⟨x, by rw [e]⟩, fun _ => ⟨x, y, z, e⟩⟩
  · obtain ⟨_, _, _, hx, hall⟩ := solve3_card h
    refine ⟨hx, fun ht => ?_⟩
    have hd0 : cubD a1 a2 a3 = 0 := by
      have : cubD a1 a2 a3 ≤ 0 := by
        have h2 : (solve3 a1 a2 a3).2 = decide (cubD a1 a2 a3 ≤ 0) := by
          unfold solve3; simp only [if_neg h]
        rw [h2] at ht; exact of_decide_eq_true ht
      exact le_antisymm this (not_lt.mp h)
    exact hall hd0

/-! ### Quartic -/

theorem solve4_aux (a1 a2 a3 a4 : ℚ) : ∃ y3 : ℂ,
    (quaAux a1 a2 a3 a4).1 + (quaAux a1 a2 a3 a4).2 + y3 = -(quaF a1 a2 : ℂ) / 2 ∧
    (quaAux a1 a2 a3 a4).1 * (quaAux a1 a2 a3 a4).2 + (quaAux a1 a2 a3 a4).2 * y3
      + (quaAux a1 a2 a3 a4).1 * y3
      = ((quaF a1 a2 : ℂ) ^ 2 - 4 * quaH a1 a2 a3 a4) / 16 ∧
    (quaAux a1 a2 a3 a4).1 * (quaAux a1 a2 a3 a4).2 * y3 = (quaG a1 a2 a3 : ℂ) ^ 2 / 64 := by
  by_cases hg : quaG a1 a2 a3 = 0
  · obtain ⟨h1, h2⟩ := solve2_vieta ((quaF a1 a2 / 2 : ℚ) : ℂ)
      (((quaF a1 a2 * quaF a1 a2 - 4 * quaH a1 a2 a3 a4) / 16 : ℚ) : ℂ)
    refine ⟨0, ?_⟩
    simp only [quaAux, if_pos hg]
    rw [hg]
    refine ⟨?_, ?_, by simp⟩
    · rw [add_zero, h1]; push_cast; ring
    · rw [h2]; push_cast; ring
  · have hv : let r := (solve3 (quaF a1 a2 / 2) ((quaF a1 a2 * quaF a1 a2 - 4 * quaH a1 a2 a3 a4) / 16)
        (-quaG a1 a2 a3 * quaG a1 a2 a3 / 64)).1
        r.1 + r.2.1 + r.2.2 = -((quaF a1 a2 / 2 : ℚ) : ℂ) ∧
        r.1 * r.2.1 + r.2.1 * r.2.2 + r.1 * r.2.2
          = (((quaF a1 a2 * quaF a1 a2 - 4 * quaH a1 a2 a3 a4) / 16 : ℚ) : ℂ)
        ∧ r.1 * r.2.1 * r.2.2 = -((-quaG a1 a2 a3 * quaG a1 a2 a3 / 64 : ℚ) : ℂ) := by
      by_cases h : cubD (quaF a1 a2 / 2) ((quaF a1 a2 * quaF a1 a2 - 4 * quaH a1 a2 a3 a4) / 16)
        (-quaG a1 a2 a3 * quaG a1 a2 a3 / 64) < 0
      · exact solve3_trig h
      · obtain ⟨h1, h2, h3, _, _⟩ := solve3_card h
        exact ⟨h1, h2, h3⟩
    obtain ⟨h1, h2, h3⟩ := hv
    refine ⟨(solve3 (quaF a1 a2 / 2) ((quaF a1 a2 * quaF a1 a2 - 4 * quaH a1 a2 a3 a4) / 16)
        (-quaG a1 a2 a3 * quaG a1 a2 a3 / 64)).1.2.2, ?_⟩
    simp only [quaAux, if_neg hg]
    refine ⟨?_, ?_, ?_⟩
    · rw [h1]; push_cast; ring
    · rw [h2]; push_cast; ring
    · rw [h3]; push_cast; ring

/-- When the quartic formula answers, its four values are all the roots of
`x⁴ + a₁ x³ + a₂ x² + a₃ x + a₄ = 0`, with multiplicity. -/
theorem C07_quartic {a1 a2 a3 a4 : ℚ} {r : ℂ × ℂ × ℂ × ℂ} (h : solve4 a1 a2 a3 a4 = some r) :
    (X - C r.1) * (X - C r.2.1) * (X - C r.2.2.1) * (X - C r.2.2.2)
      = X ^ 4 + C (a1 : ℂ) * X ^ 3 + C (a2 : ℂ) * X ^ 2 + C (a3 : ℂ) * X + C (a4 : ℂ) := by
  obtain ⟨y3, v1, v2, v3⟩ := solve4_aux a1 a2 a3 a4
  unfold solve4 at h
  simp only [] at h
  by_cases hz : (quaAux a1 a2 a3 a4).1 = 0 ∨ (quaAux a1 a2 a3 a4).2 = 0
  · rw [if_pos hz] at h; cases h
  rw [if_neg hz] at h
  rw [not_or] at hz
  have hr := (Option.some.inj h).symm
  set y1 := (quaAux a1 a2 a3 a4).1
  set y2 := (quaAux a1 a2 a3 a4).2
  set p := y1 ^ (1 / 2 : ℂ) with hp
  set q := y2 ^ (1 / 2 : ℂ) with hq
  have p2 : p ^ 2 = y1 := half_sq y1
  have q2 : q ^ 2 = y2 := half_sq y2
  have p0 : p ≠ 0 := fun e => hz.1 (by rw [← p2, e]; ring)
  have q0 : q ≠ 0 := fun e => hz.2 (by rw [← q2, e]; ring)
  set w := -(quaG a1 a2 a3 : ℂ) / (8 * p * q) with hw
  have N : p * q * w = -(quaG a1 a2 a3 : ℂ) / 8 := by rw [hw]; field_simp
  have w2 : w ^ 2 = y3 := by
    have e : (p * q * w) ^ 2 = y1 * y2 * y3 := by rw [N, v3]; ring
    have e2 : (p * q * w) ^ 2 = y1 * y2 * w ^ 2 := by rw [mul_pow, mul_pow, p2, q2]
    exact mul_left_cancel₀ (mul_ne_zero hz.1 hz.2) (by rw [← e2, e])
  rw [← p2, ← q2, ← w2] at v1 v2
  have hf : (quaF a1 a2 : ℂ) = a2 - 3 * a1 ^ 2 / 8 := by rw [quaF]; push_cast; ring
  have hg : (quaG a1 a2 a3 : ℂ) = a3 + a1 ^ 3 / 8 - a1 * a2 / 2 := by rw [quaG]; push_cast; ring
  have hh : (quaH a1 a2 a3 a4 : ℂ) = a4 - 3 * a1 ^ 4 / 256 + a1 ^ 2 * a2 / 16 - a1 * a3 / 4 := by
    rw [quaH]; push_cast; ring
  rw [hr]
  dsimp only
  apply split4
  · push_cast; ring
  · push_cast
    linear_combination (-2) * v1 + hf
  · push_cast
    linear_combination 8 * N + a1 * v1 - hg - a1 / 2 * hf
  · push_cast
    linear_combination (p ^ 2 + q ^ 2 + w ^ 2 - quaF a1 a2 / 2) * v1 - 4 * v2 - 2 * a1 * N
      - a1 ^ 2 / 8 * v1 + hh + a1 / 4 * hg + a1 ^ 2 / 16 * hf

/-- The quartic formula gives up only on the square of a quadratic polynomial. -/
theorem C07_quartic_refuses {a1 a2 a3 a4 : ℚ} (h : solve4 a1 a2 a3 a4 = none) :
    ∃ b c : ℚ, (X ^ 4 + C a1 * X ^ 3 + C a2 * X ^ 2 + C a3 * X + C a4 : ℚ[X])
      = (X ^ 2 + C b * X + C c) ^ 2 := by
  have hz : (quaAux a1 a2 a3 a4).1 = 0 ∨ (quaAux a1 a2 a3 a4).2 = 0 := by
    by_contra hc
    unfold solve4 at h
    simp only [if_neg hc] at h
    cases h
  have hg : quaG a1 a2 a3 = 0 := by
    obtain ⟨y3, _, _, v3⟩ := solve4_aux a1 a2 a3 a4
    have : (quaG a1 a2 a3 : ℂ) ^ 2 / 64 = 0 := by
      rw [← v3]; rcases hz with e | e <;> rw [e] <;> ring
    have h2 : (quaG a1 a2 a3 : ℂ) = 0 := by
      have := (div_eq_zero_iff.mp this).resolve_right (by norm_num)
      exact pow_eq_zero_iff (by norm_num) |>.mp this
    exact_mod_cast h2
  have hf : quaF a1 a2 * quaF a1 a2 - 4 * quaH a1 a2 a3 a4 = 0 := by
    have h2 := (solve2_vieta ((quaF a1 a2 / 2 : ℚ) : ℂ)
      (((quaF a1 a2 * quaF a1 a2 - 4 * quaH a1 a2 a3 a4) / 16 : ℚ) : ℂ)).2
    simp only [quaAux, if_pos hg] at hz
    have : (((quaF a1 a2 * quaF a1 a2 - 4 * quaH a1 a2 a3 a4) / 16 : ℚ) : ℂ) = 0 := by
      rw [← h2]; rcases hz with e | e <;> rw [e] <;> ring
    have h3 : (quaF a1 a2 * quaF a1 a2 - 4 * quaH a1 a2 a3 a4) / 16 = 0 := by exact_mod_cast this
    linarith
  refine ⟨a1 / 2, a1 ^ 2 / 16 + quaF a1 a2 / 2, ?_⟩
  have e2 : a2 = a1 ^ 2 / 4 + 2 * (a1 ^ 2 / 16 + quaF a1 a2 / 2) := by rw [quaF]; ring
  have e3 : a3 = a1 * (a1 ^ 2 / 16 + quaF a1 a2 / 2) := by
    rw [quaG] at hg; rw [quaF]; linear_combination hg
  have e4 : a4 = (a1 ^ 2 / 16 + quaF a1 a2 / 2) ^ 2 := by
    rw [quaH, quaF] at hf; rw [quaG] at hg; rw [quaF]; linear_combination (-1 / 4) * hf + a1 / 4 * hg
  generalize a1 ^ 2 / 16 + quaF a1 a2 / 2 = c at e2 e3 e4
  obtain ⟨k, hk⟩ : ∃ k, k = a1 / 2 := ⟨_, rfl⟩
  have e1 : a1 = k + k := by rw [hk]; ring
  have e2' : a2 = k ^ 2 + (c + c) := by rw [e2, hk]; ring
  rw [← hk, e3, e4, e2', e1]
  simp only [C_add, C_mul, C_pow]
  ring

/-- Instances: `x² - 3x + 2`, a cubic with three real irrational roots, one with a single real root,
and a quartic. -/
example : cubD 0 (-3) 1 < 0 ∧ ¬ cubD 0 3 1 < 0 ∧ quaG 0 0 1 ≠ 0 := by
  refine ⟨?_, ?_, ?_⟩ <;> norm_num [cubD, cubQ, cubR, quaG]

end Purrs.AlgEq
