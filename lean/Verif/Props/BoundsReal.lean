import Mathlib.Analysis.SpecialFunctions.Pow.Real
import Mathlib.Analysis.SpecialFunctions.Log.Base
import Mathlib.Analysis.Convex.SpecificFunctions.Basic
import Mathlib.Analysis.Convex.SpecificFunctions.Pow
import Mathlib.Algebra.Field.GeomSum
import Mathlib.Data.Nat.Log

/-!
# Analytic lemmas for the bounds of functional equations

`q = Nat.log b n`, `L = log n / log b`.
-/

set_option linter.unusedSectionVars false

namespace Purrs.Bounds

open Finset Real

/-- `log n / log b`. -/
noncomputable def lg (b n : ℝ) : ℝ := log n / log b

section
variable {b n : ℕ} (hb : 2 ≤ b) (hn : 1 ≤ n)
include hb

theorem logb_pos : 0 < log (b : ℝ) := Real.log_pos (by exact_mod_cast hb)

include hn

theorem q_le_lg : (Nat.log b n : ℝ) ≤ lg b n := by
  unfold lg
  rw [le_div_iff₀ (logb_pos hb), ← Real.log_pow]
  apply Real.log_le_log
  · positivity
  · exact_mod_cast Nat.pow_log_le_self b (by omega)

theorem lg_lt_q : lg b n < Nat.log b n + 1 := by
  unfold lg
  rw [div_lt_iff₀ (logb_pos hb)]
  have : ((Nat.log b n : ℝ) + 1) * log b = log ((b : ℝ) ^ (Nat.log b n + 1)) := by
    rw [Real.log_pow]; push_cast; ring
  rw [this]
  apply Real.log_lt_log (by exact_mod_cast hn)
  exact_mod_cast Nat.lt_pow_succ_log_self (by omega) n

theorem lg_nonneg : 0 ≤ lg b n := le_trans (by positivity) (q_le_lg hb hn)

theorem b_rpow_lg : (b : ℝ) ^ lg b n = n := by
  have h1 : (0 : ℝ) < b := by positivity
  have h2 : (0 : ℝ) < n := by positivity
  rw [Real.rpow_def_of_pos h1]
  unfold lg
  rw [mul_div_cancel₀ _ (logb_pos hb).ne', Real.exp_log h2]

/-- `n^(log a / log b) = a^(log n / log b)`. -/
theorem n_rpow_frac {a : ℝ} (ha : 0 < a) : (n : ℝ) ^ (log a / log b) = a ^ lg b n := by
  have h2 : (0 : ℝ) < n := by positivity
  rw [Real.rpow_def_of_pos h2, Real.rpow_def_of_pos ha]
  unfold lg
  congr 1
  ring

theorem pow_rpow_lg (k : ℝ) : ((b : ℝ) ^ k) ^ lg b n = (n : ℝ) ^ k := by
  have h1 : (0 : ℝ) ≤ b := by positivity
  rw [← Real.rpow_mul h1, mul_comm, Real.rpow_mul h1, b_rpow_lg hb hn]

theorem ratio_rpow_lg {a : ℝ} (ha : 0 < a) (k : ℝ) :
    (n : ℝ) ^ k * (a / (b : ℝ) ^ k) ^ lg b n = a ^ lg b n := by
  have h1 : (0 : ℝ) < (b : ℝ) ^ k := by positivity
  have h2 : (0 : ℝ) < (n : ℝ) ^ k := by positivity
  rw [Real.div_rpow ha.le h1.le, pow_rpow_lg hb hn]
  field_simp

omit hn in
theorem div_pow_rpow (j : ℕ) (k : ℝ) (n : ℕ) : ((n : ℝ) / (b : ℝ) ^ j) ^ k = (n : ℝ) ^ k / ((b : ℝ) ^ k) ^ j := by
  have h1 : (0 : ℝ) ≤ b := by positivity
  rw [Real.div_rpow (by positivity) (by positivity), ← Real.rpow_natCast, ← Real.rpow_mul h1, mul_comm,
    Real.rpow_mul h1, Real.rpow_natCast]

end

/-! ## Geometric sums -/

theorem geom_lt_one {r : ℝ} (h0 : 0 < r) (h1 : r < 1) (q : ℕ) : ∑ j ∈ range q, r ^ j ≤ 1 / (1 - r) := by
  rw [geom_sum_eq h1.ne, ← neg_div_neg_eq]
  have : 0 < 1 - r := by linarith
  have h2 : 0 < r ^ q := by positivity
  rw [show -(r - 1) = 1 - r by ring, show -(r ^ q - 1) = 1 - r ^ q by ring]
  gcongr
  linarith

theorem geom_lt_one_ge {r L : ℝ} (h0 : 0 < r) (h1 : r < 1) {q : ℕ} (hL : L < q + 1) :
    (1 - r ^ (L - 1)) / (1 - r) ≤ ∑ j ∈ range q, r ^ j := by
  rw [geom_sum_eq h1.ne, ← neg_div_neg_eq (_ ^ q - 1)]
  have : 0 < 1 - r := by linarith
  rw [show -(r - 1) = 1 - r by ring, show -(r ^ q - 1) = 1 - r ^ q by ring, ← Real.rpow_natCast]
  gcongr ?_ / _
  have := Real.rpow_le_rpow_of_exponent_ge h0 h1.le (show L - 1 ≤ (q : ℝ) by linarith)
  linarith

theorem geom_gt_one_le {r L : ℝ} (h1 : 1 < r) {q : ℕ} (hL : q ≤ L) :
    ∑ j ∈ range q, r ^ j ≤ (r ^ L - 1) / (r - 1) := by
  rw [geom_sum_eq h1.ne', ← Real.rpow_natCast]
  have : 0 < r - 1 := by linarith
  gcongr
  exact h1.le

theorem geom_gt_one_ge {r L : ℝ} (h1 : 1 < r) {q : ℕ} (hL : L < q + 1) :
    (r ^ (L - 1) - 1) / (r - 1) ≤ ∑ j ∈ range q, r ^ j := by
  rw [geom_sum_eq h1.ne', ← Real.rpow_natCast]
  have : 0 < r - 1 := by linarith
  gcongr
  · exact h1.le
  · linarith

/-! ## Floors -/

theorem floor_le {b n : ℕ} (j : ℕ) : ((n / b ^ j : ℕ) : ℝ) ≤ (n : ℝ) / (b : ℝ) ^ j := by
  have := @Nat.cast_div_le ℝ _ _ _ n (b ^ j)
  push_cast at this
  exact this

theorem lt_floor {b n : ℕ} (hb : 2 ≤ b) (j : ℕ) : (n : ℝ) / (b : ℝ) ^ j < ((n / b ^ j : ℕ) : ℝ) + 1 := by
  have h : 0 < b ^ j := by positivity
  rw [div_lt_iff₀ (by positivity)]
  have := Nat.lt_mul_div_succ n h
  have h2 : (n : ℝ) < ((b ^ j * (n / b ^ j + 1) : ℕ) : ℝ) := by exact_mod_cast this
  push_cast at h2
  linarith [h2, mul_comm ((b:ℝ)^j) ((n / b ^ j : ℕ) + 1 : ℝ)]

theorem one_le_floor {b n : ℕ} (hn : 1 ≤ n) {j : ℕ} (hj : j ≤ Nat.log b n) (hb : 2 ≤ b) : 1 ≤ n / b ^ j := by
  rw [Nat.one_le_div_iff (by positivity)]
  exact le_trans (Nat.pow_le_pow_right (by omega) hj) (Nat.pow_log_le_self b (by omega))

theorem floor_pow_le {b n : ℕ} (hb : 2 ≤ b) (j : ℕ) {k : ℝ} (hk : 0 ≤ k) :
    ((n / b ^ j : ℕ) : ℝ) ^ k ≤ (n : ℝ) ^ k / ((b : ℝ) ^ k) ^ j := by
  rw [← div_pow_rpow hb]
  exact Real.rpow_le_rpow (by positivity) (floor_le j) hk

/-- Bernoulli: `floor(t)^k ≥ t^k - k t^(k-1)` for `t ≥ 1`, `k ≥ 1`. -/
theorem floor_pow_ge {m : ℕ} {t k : ℝ} (hk : 1 ≤ k) (ht : 1 ≤ t) (hm : t < m + 1) :
    t ^ k - k * t ^ (k - 1) ≤ (m : ℝ) ^ k := by
  have h0 : 0 < t := by linarith
  have h1 : (t - 1) ^ k ≤ (m : ℝ) ^ k := Real.rpow_le_rpow (by linarith) (by linarith) (by linarith)
  refine le_trans ?_ h1
  have h2 := one_add_mul_self_le_rpow_one_add (s := -1 / t) (by rw [le_div_iff₀ h0]; linarith) hk
  have h3 : (t - 1) ^ k = t ^ k * (1 + -1 / t) ^ k := by
    rw [← Real.mul_rpow h0.le (by rw [show 1 + -1 / t = (t - 1) / t by field_simp; ring]; exact div_nonneg (by linarith) h0.le)]
    congr 1; field_simp; ring
  rw [h3, Real.rpow_sub_one h0.ne']
  have h4 : 0 < t ^ k := by positivity
  calc t ^ k - k * (t ^ k / t) = t ^ k * (1 + k * (-1 / t)) := by field_simp; ring
    _ ≤ _ := by gcongr

/-- `floor(t)^k ≥ t^k - (2^k - 1)` for `t ≥ 1`, `0 ≤ k ≤ 1`. -/
theorem floor_pow_ge' {m : ℕ} {t k : ℝ} (hk0 : 0 ≤ k) (hk1 : k ≤ 1) (hm1 : 1 ≤ m) (ht : 0 ≤ t) (hm : t < m + 1) :
    t ^ k - (2 ^ k - 1) ≤ (m : ℝ) ^ k := by
  have h1 : t ^ k ≤ ((m : ℝ) + 1) ^ k := Real.rpow_le_rpow ht hm.le hk0
  have hm1' : (1 : ℝ) ≤ m := by exact_mod_cast hm1
  have hc := Real.concaveOn_rpow hk0 hk1
  have hm0 : (0 : ℝ) < m := by linarith
  have e1 := hc.2 (show (1 : ℝ) ∈ Set.Ici 0 by simp) (show ((m : ℝ) + 1) ∈ Set.Ici 0 by simp; positivity)
    (show (0 : ℝ) ≤ (m - 1) / m by apply div_nonneg <;> linarith) (show (0 : ℝ) ≤ 1 / m by positivity)
    (by field_simp; ring)
  have e2 := hc.2 (show (1 : ℝ) ∈ Set.Ici 0 by simp) (show ((m : ℝ) + 1) ∈ Set.Ici 0 by simp; positivity)
    (show (0 : ℝ) ≤ 1 / m by positivity) (show (0 : ℝ) ≤ (m - 1) / m by apply div_nonneg <;> linarith)
    (by field_simp; ring)
  simp only [smul_eq_mul, Real.one_rpow] at e1 e2
  rw [show ((m : ℝ) - 1) / m * 1 + 1 / m * (m + 1) = 2 by field_simp; ring] at e1
  rw [show 1 / (m : ℝ) * 1 + (m - 1) / m * (m + 1) = m by field_simp; ring] at e2
  have e3 : ((m : ℝ) - 1) / m * 1 + 1 / m * (m + 1) ^ k + (1 / m * 1 + (m - 1) / m * (m + 1) ^ k) = 1 + ((m : ℝ) + 1) ^ k := by
    field_simp; ring
  linarith

/-! ## The sum of the inhomogeneous terms -/

/-- `g(n) + a g(n/b) + a^2 g(n/b^2) + ...` until the argument is smaller than `b`. -/
noncomputable def unroll (a : ℝ) (b : ℕ) (g : ℕ → ℝ) (n : ℕ) : ℝ :=
  ∑ j ∈ range (Nat.log b n), a ^ j * g (n / b ^ j)

section
variable {a : ℝ} {b n : ℕ} (ha : 0 < a) (hb : 2 ≤ b) (hn : 1 ≤ n)
include ha hb hn

omit hn in
theorem unroll_pow_le {k : ℝ} (hk : 0 ≤ k) :
    unroll a b (fun m => (m : ℝ) ^ k) n ≤ (n : ℝ) ^ k * ∑ j ∈ range (Nat.log b n), (a / (b : ℝ) ^ k) ^ j := by
  unfold unroll
  rw [mul_sum]
  apply sum_le_sum
  intro j _
  have := floor_pow_le (n := n) hb j hk
  have h2 : 0 < a ^ j := by positivity
  calc a ^ j * ((n / b ^ j : ℕ) : ℝ) ^ k ≤ a ^ j * ((n : ℝ) ^ k / ((b : ℝ) ^ k) ^ j) := by gcongr
    _ = _ := by rw [div_pow]; ring

theorem upper_lt {k : ℝ} (hk : 0 ≤ k) (h : a < (b : ℝ) ^ k) :
    unroll a b (fun m => (m : ℝ) ^ k) n ≤ (n : ℝ) ^ k * (b : ℝ) ^ k / ((b : ℝ) ^ k - a) := by
  refine (unroll_pow_le ha hb hk).trans ?_
  have hB : 0 < (b : ℝ) ^ k := by positivity
  have hN : 0 < (n : ℝ) ^ k := by positivity
  have := geom_lt_one (r := a / (b : ℝ) ^ k) (by positivity) ((div_lt_one hB).2 h) (Nat.log b n)
  have h2 : 0 < (b : ℝ) ^ k - a := by linarith
  calc _ ≤ (n : ℝ) ^ k * (1 / (1 - a / (b : ℝ) ^ k)) := by gcongr
    _ = _ := by
      have h3 : 1 - a / (b : ℝ) ^ k = ((b : ℝ) ^ k - a) / (b : ℝ) ^ k := by field_simp
      rw [h3]; field_simp

theorem upper_eq {k : ℝ} (hk : 0 ≤ k) (h : a = (b : ℝ) ^ k) :
    unroll a b (fun m => (m : ℝ) ^ k) n ≤ (n : ℝ) ^ k * lg b n := by
  refine (unroll_pow_le ha hb hk).trans ?_
  have hB : 0 < (b : ℝ) ^ k := by positivity
  rw [h, div_self hB.ne']
  simp only [one_pow, sum_const, card_range, nsmul_eq_mul, mul_one]
  have := q_le_lg hb hn
  gcongr

theorem upper_gt {k : ℝ} (hk : 0 ≤ k) (h : (b : ℝ) ^ k < a) :
    unroll a b (fun m => (m : ℝ) ^ k) n ≤ (b : ℝ) ^ k * (a ^ lg b n - (n : ℝ) ^ k) / (a - (b : ℝ) ^ k) := by
  refine (unroll_pow_le ha hb hk).trans ?_
  have hB : 0 < (b : ℝ) ^ k := by positivity
  have hN : 0 < (n : ℝ) ^ k := by positivity
  have := geom_gt_one_le (r := a / (b : ℝ) ^ k) ((one_lt_div hB).2 h) (q_le_lg hb hn)
  have h2 : 0 < a - (b : ℝ) ^ k := by linarith
  calc _ ≤ (n : ℝ) ^ k * (((a / (b : ℝ) ^ k) ^ lg b n - 1) / (a / (b : ℝ) ^ k - 1)) := by gcongr
    _ = ((n : ℝ) ^ k * (a / (b : ℝ) ^ k) ^ lg b n - (n : ℝ) ^ k) / (a / (b : ℝ) ^ k - 1) := by ring
    _ = _ := by
      rw [ratio_rpow_lg hb hn ha]
      have h3 : a / (b : ℝ) ^ k - 1 = (a - (b : ℝ) ^ k) / (b : ℝ) ^ k := by field_simp
      rw [h3]; field_simp

/-! ### Lower bounds -/

omit ha in
theorem one_le_quot {j : ℕ} (hj : j < Nat.log b n) : 1 ≤ (n : ℝ) / (b : ℝ) ^ j := by
  have h1 := one_le_floor hn hj.le hb
  have h2 := floor_le (b := b) (n := n) j
  have h3 : (1 : ℝ) ≤ ((n / b ^ j : ℕ) : ℝ) := by exact_mod_cast h1
  linarith

theorem lower_zero_one (h : a = 1) : lg b n - 1 ≤ unroll a b (fun m => (m : ℝ) ^ (0 : ℝ)) n := by
  unfold unroll
  simp only [h, one_pow, Real.rpow_zero, mul_one, sum_const, card_range, nsmul_eq_mul]
  linarith [lg_lt_q hb hn]

theorem lower_zero (h : a ≠ 1) :
    (1 - a ^ lg b n * a ^ (-1 : ℝ)) / (1 - a) ≤ unroll a b (fun m => (m : ℝ) ^ (0 : ℝ)) n := by
  unfold unroll
  simp only [Real.rpow_zero, mul_one]
  rw [← Real.rpow_add ha]
  rcases lt_or_gt_of_ne h with h | h
  · exact geom_lt_one_ge ha h (lg_lt_q hb hn)
  · have := geom_gt_one_ge h (lg_lt_q hb hn)
    rw [← neg_div_neg_eq, neg_sub, neg_sub]
    exact this

/-- The main part minus the correction for the floors. -/
theorem unroll_pow_ge {k : ℝ} (hk : 1 ≤ k) (hq : b ≤ n) :
    (n : ℝ) ^ k * ∑ j ∈ range (Nat.log b n), (a / (b : ℝ) ^ k) ^ j
      - k * (n : ℝ) ^ (k - 1) * (∑ j ∈ range (Nat.log b n), (a / (b : ℝ) ^ (k - 1)) ^ j - 1) ≤
    unroll a b (fun m => (m : ℝ) ^ k) n := by
  have hq1 : 1 ≤ Nat.log b n := Nat.log_pos (by omega) hq
  obtain ⟨q, hq'⟩ : ∃ q, Nat.log b n = q + 1 := ⟨Nat.log b n - 1, by omega⟩
  unfold unroll
  rw [hq', sum_range_succ' _ q, sum_range_succ' _ q, sum_range_succ' _ q]
  simp only [pow_zero, one_mul, Nat.div_one, add_sub_cancel_right]
  rw [mul_add, mul_one, mul_sum, mul_sum, add_sub_right_comm, ← sum_sub_distrib]
  gcongr with j hj
  have hj' : j + 1 < Nat.log b n := by rw [hq']; simpa using hj
  have h1 := one_le_quot hb hn hj'
  have := floor_pow_ge hk h1 (lt_floor hb (j + 1))
  rw [div_pow_rpow hb, div_pow_rpow hb] at this
  have h2 : 0 < a ^ (j + 1) := by positivity
  calc _ = a ^ (j + 1) * ((n : ℝ) ^ k / ((b : ℝ) ^ k) ^ (j + 1)
        - k * ((n : ℝ) ^ (k - 1) / ((b : ℝ) ^ (k - 1)) ^ (j + 1))) := by
        rw [div_pow, div_pow]; ring
    _ ≤ _ := by gcongr

theorem main_lt {k : ℝ} (h : a < (b : ℝ) ^ k) :
    (b : ℝ) ^ k / ((b : ℝ) ^ k - a) * ((n : ℝ) ^ k - a ^ lg b n * ((b : ℝ) ^ k / a)) ≤
      (n : ℝ) ^ k * ∑ j ∈ range (Nat.log b n), (a / (b : ℝ) ^ k) ^ j := by
  have hB : 0 < (b : ℝ) ^ k := by positivity
  have hN : 0 < (n : ℝ) ^ k := by positivity
  have hr : 0 < a / (b : ℝ) ^ k := by positivity
  have := geom_lt_one_ge hr ((div_lt_one hB).2 h) (lg_lt_q hb hn)
  have h2 : 0 < (b : ℝ) ^ k - a := by linarith
  refine le_trans (le_of_eq ?_) (mul_le_mul_of_nonneg_left this hN.le)
  rw [Real.rpow_sub_one hr.ne', ← ratio_rpow_lg hb hn ha k]
  have h3 : 1 - a / (b : ℝ) ^ k = ((b : ℝ) ^ k - a) / (b : ℝ) ^ k := by field_simp
  rw [h3]
  field_simp

theorem main_gt {k : ℝ} (h : (b : ℝ) ^ k < a) :
    (b : ℝ) ^ k / (a - (b : ℝ) ^ k) * (a ^ lg b n * ((b : ℝ) ^ k / a) - (n : ℝ) ^ k) ≤
      (n : ℝ) ^ k * ∑ j ∈ range (Nat.log b n), (a / (b : ℝ) ^ k) ^ j := by
  have hB : 0 < (b : ℝ) ^ k := by positivity
  have hN : 0 < (n : ℝ) ^ k := by positivity
  have hr : 0 < a / (b : ℝ) ^ k := by positivity
  have := geom_gt_one_ge ((one_lt_div hB).2 h) (lg_lt_q hb hn)
  have h2 : 0 < a - (b : ℝ) ^ k := by linarith
  refine le_trans (le_of_eq ?_) (mul_le_mul_of_nonneg_left this hN.le)
  rw [Real.rpow_sub_one hr.ne', ← ratio_rpow_lg hb hn ha k]
  have h3 : a / (b : ℝ) ^ k - 1 = (a - (b : ℝ) ^ k) / (b : ℝ) ^ k := by field_simp
  rw [h3]
  field_simp

theorem main_eq {k : ℝ} (h : a = (b : ℝ) ^ k) :
    (n : ℝ) ^ k * (lg b n - 1) ≤ (n : ℝ) ^ k * ∑ j ∈ range (Nat.log b n), (a / (b : ℝ) ^ k) ^ j := by
  have hB : 0 < (b : ℝ) ^ k := by positivity
  rw [h, div_self hB.ne']
  simp only [one_pow, sum_const, card_range, nsmul_eq_mul, mul_one]
  have := lg_lt_q hb hn
  gcongr
  linarith

/-- The correction when `a > b^(k-1)`. -/
theorem corr_gt {k : ℝ} (h : (b : ℝ) ^ (k - 1) < a) :
    (n : ℝ) ^ (k - 1) * (∑ j ∈ range (Nat.log b n), (a / (b : ℝ) ^ (k - 1)) ^ j - 1) ≤
      ((b : ℝ) ^ (k - 1) * a ^ lg b n - a * (n : ℝ) ^ (k - 1)) / (a - (b : ℝ) ^ (k - 1)) := by
  have hB : 0 < (b : ℝ) ^ (k - 1) := by positivity
  have hN : 0 < (n : ℝ) ^ (k - 1) := by positivity
  have h1 := geom_gt_one_le (r := a / (b : ℝ) ^ (k - 1)) ((one_lt_div hB).2 h) (q_le_lg hb hn)
  have h2 : 0 < a - (b : ℝ) ^ (k - 1) := by linarith
  calc _ ≤ (n : ℝ) ^ (k - 1) * (((a / (b : ℝ) ^ (k - 1)) ^ lg b n - 1) / (a / (b : ℝ) ^ (k - 1) - 1) - 1) := by gcongr
    _ = ((n : ℝ) ^ (k - 1) * (a / (b : ℝ) ^ (k - 1)) ^ lg b n - (n : ℝ) ^ (k - 1)) / (a / (b : ℝ) ^ (k - 1) - 1)
        - (n : ℝ) ^ (k - 1) := by ring
    _ = _ := by
      rw [ratio_rpow_lg hb hn ha]
      have h3 : a / (b : ℝ) ^ (k - 1) - 1 = (a - (b : ℝ) ^ (k - 1)) / (b : ℝ) ^ (k - 1) := by field_simp
      rw [h3]; field_simp; ring

theorem lower_B {k : ℝ} (hk : 1 ≤ k) (hq : b ≤ n) (h : a = (b : ℝ) ^ (k - 1)) :
    (b : ℝ) / (b - 1) * (n : ℝ) ^ k - ((b : ℝ) ^ (1 + 1 : ℝ) / (b - 1) + k * lg b n - 1) * (n : ℝ) ^ (k - 1) ≤
      unroll a b (fun m => (m : ℝ) ^ k) n := by
  refine le_trans ?_ (unroll_pow_ge ha hb hn hk hq)
  have hb0 : (0 : ℝ) < b := by positivity
  have hb1 : (1 : ℝ) < b := by exact_mod_cast hb
  have hn0 : (0 : ℝ) < n := by positivity
  have hB : 0 < (b : ℝ) ^ (k - 1) := by positivity
  have hN : 0 < (n : ℝ) ^ (k - 1) := by positivity
  have hBk : (b : ℝ) ^ k = (b : ℝ) ^ (k - 1) * b := by rw [Real.rpow_sub_one hb0.ne']; field_simp
  have hNk : (n : ℝ) ^ k = (n : ℝ) ^ (k - 1) * n := by rw [Real.rpow_sub_one hn0.ne']; field_simp
  have h1 : a < (b : ℝ) ^ k := by rw [hBk, h]; nlinarith
  have h2 := main_lt ha hb hn h1
  have h3 : a ^ lg b n = (n : ℝ) ^ (k - 1) := by rw [h, pow_rpow_lg hb hn]
  rw [h3] at h2
  have h4 : ∑ j ∈ range (Nat.log b n), (a / (b : ℝ) ^ (k - 1)) ^ j = (Nat.log b n : ℝ) := by
    rw [h, div_self hB.ne']; simp
  rw [h4]
  have h5 := q_le_lg hb hn
  have h6 : k * (n : ℝ) ^ (k - 1) * ((Nat.log b n : ℝ) - 1) ≤ k * (n : ℝ) ^ (k - 1) * (lg b n - 1) := by
    gcongr
  refine le_trans ?_ (sub_le_sub h2 h6)
  rw [hBk, hNk, h, show ((1 : ℝ) + 1) = ((2 : ℕ) : ℝ) by norm_num, Real.rpow_natCast]
  have hb2 : (0 : ℝ) < b - 1 := by linarith
  have e1 : (b : ℝ) ^ (k - 1) * b / ((b : ℝ) ^ (k - 1) * b - (b : ℝ) ^ (k - 1)) = b / (b - 1) := by
    rw [show (b : ℝ) ^ (k - 1) * b - (b : ℝ) ^ (k - 1) = (b : ℝ) ^ (k - 1) * (b - 1) by ring]
    field_simp
  have e2 : (b : ℝ) ^ (k - 1) * b / (b : ℝ) ^ (k - 1) = b := by field_simp
  rw [e1, e2]
  have e3 : (n : ℝ) ^ (k - 1) ≤ k * (n : ℝ) ^ (k - 1) := by nlinarith
  have e4 : (b : ℝ) / (b - 1) * ((n : ℝ) ^ (k - 1) * n) - ((b : ℝ) ^ 2 / (b - 1) + k * lg b n - 1) * (n : ℝ) ^ (k - 1)
      = b / (b - 1) * ((n : ℝ) ^ (k - 1) * n - (n : ℝ) ^ (k - 1) * b) - k * (n : ℝ) ^ (k - 1) * (lg b n) + (n : ℝ) ^ (k - 1) := by
    field_simp; ring
  rw [e4]
  linarith

theorem lower_C {k : ℝ} (hk : 1 ≤ k) (hq : b ≤ n) (h : (b : ℝ) ^ (k - 1) < a) (h1 : a < (b : ℝ) ^ k) :
    (b : ℝ) ^ k / ((b : ℝ) ^ k - a) * (n : ℝ) ^ k
      - ((b : ℝ) ^ k / ((b : ℝ) ^ k - a) * ((b : ℝ) ^ k / a) + k * (b : ℝ) ^ (k - 1) / (a - (b : ℝ) ^ (k - 1))) * a ^ lg b n
      + k * a * (n : ℝ) ^ (k - 1) / (a - (b : ℝ) ^ (k - 1)) ≤ unroll a b (fun m => (m : ℝ) ^ k) n := by
  refine le_trans ?_ (unroll_pow_ge ha hb hn hk hq)
  have h2 := main_lt ha hb hn h1
  have h3 := mul_le_mul_of_nonneg_left (corr_gt ha hb hn h) (show 0 ≤ k by linarith)
  have h4 : 0 < a - (b : ℝ) ^ (k - 1) := by linarith
  refine le_trans (le_of_eq ?_) (le_trans (sub_le_sub h2 h3) (le_of_eq (by ring)))
  field_simp
  ring

theorem lower_D {k : ℝ} (hk : 1 ≤ k) (hq : b ≤ n) (h : a = (b : ℝ) ^ k) :
    (n : ℝ) ^ k * (lg b n - 1 - k / (b - 1)) + k * (n : ℝ) ^ (k - 1) * (b / (b - 1)) ≤
      unroll a b (fun m => (m : ℝ) ^ k) n := by
  refine le_trans ?_ (unroll_pow_ge ha hb hn hk hq)
  have hb0 : (0 : ℝ) < b := by positivity
  have hb1 : (1 : ℝ) < b := by exact_mod_cast hb
  have hB : 0 < (b : ℝ) ^ (k - 1) := by positivity
  have hBk : (b : ℝ) ^ k = (b : ℝ) ^ (k - 1) * b := by rw [Real.rpow_sub_one hb0.ne']; field_simp
  have h1 : (b : ℝ) ^ (k - 1) < a := by rw [h, hBk]; nlinarith
  have h2 := main_eq ha hb hn h
  have h3 := mul_le_mul_of_nonneg_left (corr_gt ha hb hn h1) (show 0 ≤ k by linarith)
  refine le_trans (le_of_eq ?_) (le_trans (sub_le_sub h2 h3) (le_of_eq (by ring)))
  have h4 : a ^ lg b n = (n : ℝ) ^ k := by rw [h, pow_rpow_lg hb hn]
  rw [h4, h, hBk]
  have h5 : (b : ℝ) ^ (k - 1) * b - (b : ℝ) ^ (k - 1) = (b : ℝ) ^ (k - 1) * (b - 1) := by ring
  have hb2 : (0 : ℝ) < b - 1 := by linarith
  rw [h5]
  field_simp
  ring

/-- The floors for `0 < k < 1`. -/
theorem unroll_root_ge {k : ℝ} (hk0 : 0 ≤ k) (hk1 : k ≤ 1) (hq : b ≤ n) :
    (n : ℝ) ^ k * ∑ j ∈ range (Nat.log b n), (a / (b : ℝ) ^ k) ^ j
      - (2 ^ k - 1) * (∑ j ∈ range (Nat.log b n), a ^ j - 1) ≤
    unroll a b (fun m => (m : ℝ) ^ k) n := by
  have hq1 : 1 ≤ Nat.log b n := Nat.log_pos (by omega) hq
  obtain ⟨q, hq'⟩ : ∃ q, Nat.log b n = q + 1 := ⟨Nat.log b n - 1, by omega⟩
  unfold unroll
  rw [hq', sum_range_succ' _ q, sum_range_succ' _ q, sum_range_succ' _ q]
  simp only [pow_zero, one_mul, Nat.div_one, add_sub_cancel_right]
  rw [mul_add, mul_one, mul_sum, mul_sum, add_sub_right_comm, ← sum_sub_distrib]
  gcongr with j hj
  have hj' : j + 1 < Nat.log b n := by rw [hq']; simpa using hj
  have := floor_pow_ge' hk0 hk1 (one_le_floor hn hj'.le hb) (by positivity) (lt_floor hb (j + 1))
  rw [div_pow_rpow hb] at this
  have h2 : 0 < a ^ (j + 1) := by positivity
  calc _ = a ^ (j + 1) * ((n : ℝ) ^ k / ((b : ℝ) ^ k) ^ (j + 1) - (2 ^ k - 1)) := by
        rw [div_pow]; ring
    _ ≤ _ := by gcongr

theorem lower_E {k : ℝ} (hk0 : 0 < k) (hk1 : k < 1) (hq : b ≤ n) (h : a < (b : ℝ) ^ k) (h1 : a ≤ 1) :
    (n : ℝ) ^ k * (b : ℝ) ^ k / ((b : ℝ) ^ k - a)
      - (b : ℝ) ^ k / ((b : ℝ) ^ k - a) * ((b : ℝ) ^ k / a) ^ (1 + 1 : ℝ) * a ^ lg b n - (lg b n - 1) ≤
      unroll a b (fun m => (m : ℝ) ^ k) n := by
  refine le_trans ?_ (unroll_root_ge ha hb hn hk0.le hk1.le hq)
  have hB : 0 < (b : ℝ) ^ k := by positivity
  have h2 := main_lt ha hb hn h
  have h0 : 0 < (b : ℝ) ^ k - a := by linarith
  have h3 : (2 : ℝ) ^ k ≤ 2 := by
    calc (2 : ℝ) ^ k ≤ 2 ^ (1 : ℝ) := Real.rpow_le_rpow_of_exponent_le (by norm_num) hk1.le
      _ = 2 := by norm_num
  have h3' : (1 : ℝ) ≤ (2 : ℝ) ^ k := Real.one_le_rpow (by norm_num) hk0.le
  have hq1 : 1 ≤ Nat.log b n := Nat.log_pos (by omega) hq
  have h4 : ∑ j ∈ range (Nat.log b n), a ^ j ≤ Nat.log b n := by
    calc ∑ j ∈ range (Nat.log b n), a ^ j ≤ ∑ j ∈ range (Nat.log b n), (1 : ℝ) :=
          sum_le_sum fun j _ => pow_le_one₀ ha.le h1
      _ = _ := by simp
  have h5 := q_le_lg hb hn
  have h6 : (2 ^ k - 1) * (∑ j ∈ range (Nat.log b n), a ^ j - 1) ≤ lg b n - 1 := by
    have h7 : (1 : ℝ) ≤ Nat.log b n := by exact_mod_cast hq1
    calc _ ≤ (2 ^ k - 1) * ((Nat.log b n : ℝ) - 1) := by
          apply mul_le_mul_of_nonneg_left _ (by linarith); linarith
      _ ≤ 1 * ((Nat.log b n : ℝ) - 1) := by apply mul_le_mul_of_nonneg_right <;> linarith
      _ ≤ _ := by linarith
  refine le_trans ?_ (sub_le_sub h2 h6)
  gcongr ?_ - _
  have h8 : 1 ≤ (b : ℝ) ^ k / a := by rw [le_div_iff₀ ha]; linarith
  have h9 : (b : ℝ) ^ k / a ≤ ((b : ℝ) ^ k / a) ^ (1 + 1 : ℝ) := by
    calc (b : ℝ) ^ k / a = ((b : ℝ) ^ k / a) ^ (1 : ℝ) := by rw [Real.rpow_one]
      _ ≤ _ := Real.rpow_le_rpow_of_exponent_le h8 (by norm_num)
  have h10 : 0 < a ^ lg b n := by positivity
  have h11 : 0 < (b : ℝ) ^ k / ((b : ℝ) ^ k - a) := by positivity
  have : (b : ℝ) ^ k / ((b : ℝ) ^ k - a) * (a ^ lg b n * ((b : ℝ) ^ k / a)) ≤
      (b : ℝ) ^ k / ((b : ℝ) ^ k - a) * (a ^ lg b n * ((b : ℝ) ^ k / a) ^ (1 + 1 : ℝ)) := by gcongr
  have e : (n : ℝ) ^ k * (b : ℝ) ^ k / ((b : ℝ) ^ k - a) = (b : ℝ) ^ k / ((b : ℝ) ^ k - a) * (n : ℝ) ^ k := by ring
  rw [e]
  nlinarith

theorem lower_G {k : ℝ} (hk0 : 0 < k) (hk1 : k < 1) (hq : b ≤ n) (h : (b : ℝ) ^ k < a) :
    (b : ℝ) ^ k / (a - (b : ℝ) ^ k) * ((b : ℝ) ^ k / a) ^ (1 + 1 : ℝ) * a ^ lg b n
      - (b : ℝ) ^ k / (a - (b : ℝ) ^ k) * (n : ℝ) ^ k - (lg b n - 1) ≤
      unroll a b (fun m => (m : ℝ) ^ k) n := by
  refine le_trans ?_ (unroll_root_ge ha hb hn hk0.le hk1.le hq)
  set B := (b : ℝ) ^ k with hBdef
  have hb1 : (1 : ℝ) < b := by exact_mod_cast hb
  have hB : 1 < B := Real.one_lt_rpow hb1 hk0
  have h2B : (2 : ℝ) ^ k ≤ B := Real.rpow_le_rpow (by norm_num) (by exact_mod_cast hb) hk0.le
  have h0 : 0 < a - B := by linarith
  have hN : 0 < (n : ℝ) ^ k := by positivity
  have h2k : (1 : ℝ) ≤ (2 : ℝ) ^ k := Real.one_le_rpow (by norm_num) hk0.le
  have hq1 : 1 ≤ Nat.log b n := Nat.log_pos (by omega) hq
  have hL := q_le_lg hb hn
  have hL' := lg_lt_q hb hn
  have hq1' : (1 : ℝ) ≤ Nat.log b n := by exact_mod_cast hq1
  -- the geometric sums
  have hr1 : 1 < a / B := (one_lt_div (by linarith)).2 h
  have hs1 : ∑ j ∈ range (Nat.log b n), (a / B) ^ j = ((a / B) ^ Nat.log b n - 1) / (a / B - 1) := geom_sum_eq hr1.ne' _
  have hs2 : ∑ j ∈ range (Nat.log b n), a ^ j = (a ^ Nat.log b n - 1) / (a - 1) :=
    geom_sum_eq (by linarith) _
  obtain ⟨R, hR⟩ : ∃ R, R = a / B := ⟨_, rfl⟩
  have haR : a = R * B := by rw [hR]; field_simp
  have hRL := ratio_rpow_lg hb hn ha k
  rw [← hBdef, ← hR] at hRL
  rw [← hR] at hr1
  rw [hs1, hs2, ← hR]
  set q := Nat.log b n
  have hBq : B ^ q ≤ (n : ℝ) ^ k := by
    rw [hBdef, ← Real.rpow_natCast, ← Real.rpow_mul (by positivity), mul_comm, Real.rpow_mul (by positivity),
      Real.rpow_natCast]
    apply Real.rpow_le_rpow (by positivity) _ hk0.le
    exact_mod_cast Nat.pow_log_le_self b (by omega)
  have hRpos : 0 < R := by linarith
  have hP1 : a ^ q ≤ (n : ℝ) ^ k * R ^ q := by
    rw [haR, mul_pow, mul_comm]
    gcongr
  have hP2 : a ^ lg b n ≤ (n : ℝ) ^ k * R ^ q * R := by
    rw [← hRL, mul_assoc, ← pow_succ, ← Real.rpow_natCast]
    gcongr
    · exact hr1.le
    · push_cast; linarith
  set P := (n : ℝ) ^ k * R ^ q with hPdef
  have haq : 0 < a ^ q := by positivity
  have hBa : B / (a - B) = 1 / (R - 1) := by
    have : a - B = B * (R - 1) := by rw [haR]; ring
    rw [this]
    have : 0 < B := by linarith
    have : 0 < R - 1 := by linarith
    field_simp
  have hBa2 : (B / a) ^ (1 + 1 : ℝ) = 1 / R ^ 2 := by
    rw [show ((1 : ℝ) + 1) = ((2 : ℕ) : ℝ) by norm_num, Real.rpow_natCast, hR]
    have : 0 < B := by linarith
    field_simp
  rw [hBa, hBa2]
  have hR1 : 0 < R - 1 := by linarith
  have e1 : (n : ℝ) ^ k * ((R ^ q - 1) / (R - 1)) = P / (R - 1) - (n : ℝ) ^ k / (R - 1) := by
    rw [hPdef]; field_simp
  rw [e1]
  have f1 : (2 ^ k - 1) * ((a ^ q - 1) / (a - 1) - 1) ≤ a ^ q / R := by
    have ha1 : 0 < a - 1 := by linarith
    calc (2 ^ k - 1) * ((a ^ q - 1) / (a - 1) - 1) ≤ (2 ^ k - 1) * (a ^ q / (a - 1)) := by
          apply mul_le_mul_of_nonneg_left _ (by linarith)
          have : (a ^ q - 1) / (a - 1) ≤ a ^ q / (a - 1) := by gcongr; linarith
          linarith
      _ ≤ (B - 1) * (a ^ q / (a - 1)) := by gcongr
      _ ≤ a ^ q / R := by
          rw [mul_div_assoc', div_le_div_iff₀ ha1 hRpos]
          have : (B - 1) * R ≤ a - 1 := by rw [haR]; nlinarith
          nlinarith
  have f2 : 1 / (R - 1) * (1 / R ^ 2) * a ^ lg b n ≤ 1 / (R - 1) * (1 / R ^ 2) * (P * R) := by gcongr
  have f3 : 1 / (R - 1) * (1 / R ^ 2) * (P * R) = P / (R - 1) - P / R := by field_simp; ring
  have f4 : a ^ q / R ≤ P / R := by gcongr
  have f5 : (1 : ℝ) / (R - 1) * (n : ℝ) ^ k = (n : ℝ) ^ k / (R - 1) := by ring
  linarith

end

end Purrs.Bounds
