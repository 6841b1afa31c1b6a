import Verif.Props.BoundsReal

/-!
# Analytic lemmas for the bounds: logarithms and exponentials
-/

set_option linter.unusedSectionVars false

namespace Purrs.Bounds

open Finset Real

/-- The formula for `g(n) = log n` (divided by `log b`). -/
noncomputable def G (r y : ℝ) : ℝ := (r * r ^ y - (r - 1) * y - r) / (r - 1) ^ 2

theorem G_rec {r : ℝ} (h0 : 0 < r) (h1 : r ≠ 1) (y : ℝ) : G r y = y + r * G r (y - 1) := by
  unfold G
  have : r - 1 ≠ 0 := sub_ne_zero.2 h1
  rw [Real.rpow_sub_one h0.ne']
  field_simp
  ring

theorem G_nonneg {r : ℝ} (h0 : 0 < r) {y : ℝ} (hy : 0 ≤ y) : 0 ≤ G r y := by
  unfold G
  apply div_nonneg _ (sq_nonneg _)
  have h1 : 1 + y * log r ≤ r ^ y := by
    rw [Real.rpow_def_of_pos h0]
    have := Real.add_one_le_exp (log r * y)
    linarith
  have h2 : r - 1 ≤ r * log r := by
    have := Real.one_sub_inv_le_log_of_pos h0
    have h3 := mul_le_mul_of_nonneg_left this h0.le
    rw [mul_sub, mul_inv_cancel₀ h0.ne'] at h3
    linarith
  have h3 := mul_le_mul_of_nonneg_left h1 h0.le
  have h4 := mul_le_mul_of_nonneg_left h2 hy
  nlinarith

theorem arith_geom {r : ℝ} (h0 : 0 < r) (h1 : r ≠ 1) (y : ℝ) (q : ℕ) :
    ∑ j ∈ range q, r ^ j * (y - j) = G r y - r ^ q * G r (y - q) := by
  induction q with
  | zero => simp
  | succ q ih =>
    rw [sum_range_succ, ih]
    have := G_rec h0 h1 (y - q)
    push_cast
    rw [show y - ((q : ℝ) + 1) = y - q - 1 by ring, pow_succ]
    rw [this]; ring

theorem arith_one (y : ℝ) (q : ℕ) : ∑ j ∈ range q, (y - (j : ℝ)) = q * y - q * (q - 1) / 2 := by
  induction q with
  | zero => simp
  | succ q ih => rw [sum_range_succ, ih]; push_cast; ring

section
variable {a : ℝ} {b n : ℕ} (ha : 0 < a) (hb : 2 ≤ b) (hn : 1 ≤ n)
include ha hb hn

theorem unroll_powlog_le {k : ℝ} (hk : 0 ≤ k) :
    unroll a b (fun m => (m : ℝ) ^ k * log m) n ≤
      (n : ℝ) ^ k * log b * ∑ j ∈ range (Nat.log b n), (a / (b : ℝ) ^ k) ^ j * (lg b n - j) := by
  unfold unroll
  rw [mul_sum]
  apply sum_le_sum
  intro j hj
  have hj' : j < Nat.log b n := by simpa using hj
  have h1 := one_le_floor hn hj'.le hb
  have h1' : (1 : ℝ) ≤ ((n / b ^ j : ℕ) : ℝ) := by exact_mod_cast h1
  have h2 := floor_le (b := b) (n := n) j
  have h3 := floor_pow_le (n := n) hb j hk
  have hlb := logb_pos hb
  have h4 : log ((n / b ^ j : ℕ) : ℝ) ≤ log b * (lg b n - j) := by
    calc log ((n / b ^ j : ℕ) : ℝ) ≤ log ((n : ℝ) / (b : ℝ) ^ j) := Real.log_le_log (by linarith) h2
      _ = log n - j * log b := by
        rw [Real.log_div (by positivity) (by positivity), Real.log_pow]
      _ = _ := by unfold lg; field_simp
  have h5 : 0 ≤ log ((n / b ^ j : ℕ) : ℝ) := Real.log_nonneg h1'
  calc a ^ j * (((n / b ^ j : ℕ) : ℝ) ^ k * log ((n / b ^ j : ℕ) : ℝ)) ≤
        a ^ j * ((n : ℝ) ^ k / ((b : ℝ) ^ k) ^ j * (log b * (lg b n - j))) := by
        gcongr
    _ = _ := by rw [div_pow]; ring

theorem powlog_eq {k : ℝ} (hk : 0 ≤ k) (h : a = (b : ℝ) ^ k) :
    unroll a b (fun m => (m : ℝ) ^ k * log m) n ≤ 1 / 2 * ((n : ℝ) ^ k * log n) * (lg b n + 1) := by
  refine (unroll_powlog_le ha hb hn hk).trans ?_
  have hB : 0 < (b : ℝ) ^ k := by positivity
  have hlb := logb_pos hb
  rw [h, div_self hB.ne']
  simp only [one_pow, one_mul]
  rw [arith_one]
  have h1 := q_le_lg hb hn
  have h2 : log (n : ℝ) = log b * lg b n := by unfold lg; field_simp
  rw [h2]
  have hN : 0 < (n : ℝ) ^ k * log b := by positivity
  have : (Nat.log b n : ℝ) * lg b n - Nat.log b n * (Nat.log b n - 1) / 2 ≤ 1 / 2 * lg b n * (lg b n + 1) := by nlinarith
  calc _ ≤ (n : ℝ) ^ k * log b * (1 / 2 * lg b n * (lg b n + 1)) := by gcongr
    _ = _ := by ring

theorem powlog_ne {k : ℝ} (hk : 0 ≤ k) (h : a ≠ (b : ℝ) ^ k) :
    unroll a b (fun m => (m : ℝ) ^ k * log m) n ≤
      (b : ℝ) ^ k * log b / (a - (b : ℝ) ^ k) ^ 2 *
        (a * a ^ lg b n - (a - (b : ℝ) ^ k) * ((n : ℝ) ^ k * log n) / log b - a * (n : ℝ) ^ k) := by
  refine (unroll_powlog_le ha hb hn hk).trans ?_
  have hB : 0 < (b : ℝ) ^ k := by positivity
  have hlb := logb_pos hb
  have hr0 : 0 < a / (b : ℝ) ^ k := by positivity
  have hr1 : a / (b : ℝ) ^ k ≠ 1 := by
    intro h'; rw [div_eq_one_iff_eq hB.ne'] at h'; exact h h'
  rw [arith_geom hr0 hr1]
  have h1 := q_le_lg hb hn
  have h2 : 0 ≤ (a / (b : ℝ) ^ k) ^ Nat.log b n * G (a / (b : ℝ) ^ k) (lg b n - Nat.log b n) :=
    mul_nonneg (by positivity) (G_nonneg hr0 (by linarith))
  have hN : 0 < (n : ℝ) ^ k := by positivity
  calc _ ≤ (n : ℝ) ^ k * log b * G (a / (b : ℝ) ^ k) (lg b n) := by gcongr; linarith
    _ = _ := by
      unfold G
      have h3 : log (n : ℝ) = log b * lg b n := by unfold lg; field_simp
      rw [h3]
      have h4 := ratio_rpow_lg hb hn ha k
      rw [← h4]
      have h5 : a / (b : ℝ) ^ k - 1 = (a - (b : ℝ) ^ k) / (b : ℝ) ^ k := by field_simp
      rw [h5]
      have h6 : a - (b : ℝ) ^ k ≠ 0 := sub_ne_zero.2 h
      field_simp

theorem exp_lower {c : ℝ} (hc : 0 < c) (hq : b ≤ n) : c ^ (n : ℝ) ≤ unroll a b (fun m => c ^ (m : ℝ)) n := by
  have hq1 : 1 ≤ Nat.log b n := Nat.log_pos (by omega) hq
  have : a ^ 0 * c ^ ((n / b ^ 0 : ℕ) : ℝ) ≤ unroll a b (fun m => c ^ (m : ℝ)) n := by
    unfold unroll
    exact single_le_sum (f := fun j => a ^ j * c ^ ((n / b ^ j : ℕ) : ℝ)) (fun j _ => by positivity)
      (by simp; omega)
  simpa using this

theorem unroll_exp_split {c : ℝ} (hc : 1 ≤ c) (hq : b ≤ n) :
    unroll a b (fun m => c ^ (m : ℝ)) n ≤
      c ^ (n : ℝ) + ∑ j ∈ range (Nat.log b n - 1), a ^ (j + 1) * c ^ ((n : ℝ) / (b : ℝ) ^ (j + 1)) := by
  have hq1 : 1 ≤ Nat.log b n := Nat.log_pos (by omega) hq
  obtain ⟨q, hq'⟩ : ∃ q, Nat.log b n = q + 1 := ⟨Nat.log b n - 1, by omega⟩
  unfold unroll
  rw [hq', sum_range_succ']
  simp only [pow_zero, one_mul, Nat.div_one, Nat.add_sub_cancel]
  rw [add_comm]
  gcongr with j hj
  exact floor_le _

theorem exp_upper {c : ℝ} (hc : 1 < c) (hq : b ≤ n) (h : a * c ^ (b : ℝ) < c ^ ((b : ℝ) ^ 2)) :
    unroll a b (fun m => c ^ (m : ℝ)) n ≤
      c ^ (n : ℝ) + a * c ^ ((b : ℝ) ^ 2) / (c ^ ((b : ℝ) ^ 2) - a * c ^ (b : ℝ)) * c ^ ((n : ℝ) / b) := by
  refine (unroll_exp_split ha hb hn hc.le hq).trans ?_
  have hc0 : 0 < c := by linarith
  have hb0 : (0 : ℝ) < b := by positivity
  have hb1 : (1 : ℝ) < b := by exact_mod_cast hb
  set ρ := a * c ^ (b : ℝ) / c ^ ((b : ℝ) ^ 2) with hρ
  have hρ0 : 0 < ρ := by positivity
  have hρ1 : ρ < 1 := by rw [hρ, div_lt_one (by positivity)]; exact h
  have key : ∀ j, j < Nat.log b n - 1 →
      a ^ (j + 1) * c ^ ((n : ℝ) / (b : ℝ) ^ (j + 1)) ≤ a * c ^ ((n : ℝ) / b) * ρ ^ j := by
    intro j
    induction j with
    | zero => intro _; simp
    | succ j ih =>
      intro hj
      have ih := ih (by omega)
      have h1 : (b : ℝ) ^ (j + 3) ≤ n := by
        have : b ^ (j + 3) ≤ n := le_trans (Nat.pow_le_pow_right (by omega) (by omega : j + 3 ≤ Nat.log b n))
          (Nat.pow_log_le_self b (by omega))
        exact_mod_cast this
      have h2 : (b : ℝ) ≤ n / (b : ℝ) ^ (j + 2) := by
        rw [le_div_iff₀ (by positivity), ← pow_succ']; exact h1
      have h3 : (n : ℝ) / (b : ℝ) ^ (j + 2) + ((b : ℝ) ^ 2 - b) ≤ n / (b : ℝ) ^ (j + 1) := by
        have : (n : ℝ) / (b : ℝ) ^ (j + 1) = n / (b : ℝ) ^ (j + 2) * b := by
          rw [pow_succ _ (j + 1)]; field_simp
        rw [this]; nlinarith
      have h4 : c ^ ((n : ℝ) / (b : ℝ) ^ (j + 2)) * c ^ ((b : ℝ) ^ 2 - b) ≤ c ^ ((n : ℝ) / (b : ℝ) ^ (j + 1)) := by
        rw [← Real.rpow_add hc0]
        exact Real.rpow_le_rpow_of_exponent_le hc.le h3
      have h5 : c ^ ((b : ℝ) ^ 2 - b) = a / ρ := by
        rw [Real.rpow_sub hc0, hρ]; field_simp
      rw [h5] at h4
      have h6 : c ^ ((n : ℝ) / (b : ℝ) ^ (j + 2)) * a ≤ c ^ ((n : ℝ) / (b : ℝ) ^ (j + 1)) * ρ := by
        rw [mul_div_assoc', div_le_iff₀ hρ0] at h4; exact h4
      calc a ^ (j + 1 + 1) * c ^ ((n : ℝ) / (b : ℝ) ^ (j + 1 + 1))
          = a ^ (j + 1) * (c ^ ((n : ℝ) / (b : ℝ) ^ (j + 2)) * a) := by rw [pow_succ]; ring
        _ ≤ a ^ (j + 1) * (c ^ ((n : ℝ) / (b : ℝ) ^ (j + 1)) * ρ) := by gcongr
        _ = (a ^ (j + 1) * c ^ ((n : ℝ) / (b : ℝ) ^ (j + 1))) * ρ := by ring
        _ ≤ (a * c ^ ((n : ℝ) / b) * ρ ^ j) * ρ := by gcongr
        _ = _ := by rw [pow_succ]; ring
  have h7 : ∑ j ∈ range (Nat.log b n - 1), a ^ (j + 1) * c ^ ((n : ℝ) / (b : ℝ) ^ (j + 1)) ≤
      a * c ^ ((n : ℝ) / b) * (1 / (1 - ρ)) := by
    calc _ ≤ ∑ j ∈ range (Nat.log b n - 1), a * c ^ ((n : ℝ) / b) * ρ ^ j :=
          sum_le_sum fun j hj => key j (by simpa using hj)
      _ = a * c ^ ((n : ℝ) / b) * ∑ j ∈ range (Nat.log b n - 1), ρ ^ j := by rw [mul_sum]
      _ ≤ _ := by
        have := geom_lt_one hρ0 hρ1 (Nat.log b n - 1)
        gcongr
  have h8 : 1 - ρ = (c ^ ((b : ℝ) ^ 2) - a * c ^ (b : ℝ)) / c ^ ((b : ℝ) ^ 2) := by rw [hρ]; field_simp
  have h9 : 0 < c ^ ((b : ℝ) ^ 2) - a * c ^ (b : ℝ) := by linarith
  have h10 : 0 < c ^ ((b : ℝ) ^ 2) := by positivity
  rw [h8] at h7
  have h11 : a * c ^ ((n : ℝ) / b) * (1 / ((c ^ ((b : ℝ) ^ 2) - a * c ^ (b : ℝ)) / c ^ ((b : ℝ) ^ 2))) =
      a * c ^ ((b : ℝ) ^ 2) / (c ^ ((b : ℝ) ^ 2) - a * c ^ (b : ℝ)) * c ^ ((n : ℝ) / b) := by
    field_simp
  linarith

end

end Purrs.Bounds
