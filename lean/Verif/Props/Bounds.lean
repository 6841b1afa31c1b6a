import Verif.Model.Bounds
import Verif.Props.BoundsLog
import Verif.Props.Eliminate

/-!
# C38, C39: the bounds for functional equations enclose the solution
-/

set_option linter.unusedSectionVars false

namespace Purrs.Bounds

open Purrs Purrs.WeightedAvg Finset
open Purrs.Eliminate (eval_noSym)
open Purrs.Classify (has_mulE)
open Function (update update_of_ne update_self)

/-! ## Specification -/

/-- `x` satisfies `x(n) = a x(n/b) + g(n)`, with the quotient rounded down, from `b` on. -/
def Satisfies (ξ : ℝ → ℝ) (a : ℝ) (b : ℕ) (g : ℕ → ℝ) : Prop :=
  ∀ m : ℕ, b ≤ m → ξ m = a * ξ ((m / b : ℕ) : ℝ) + g m

/-- The value at `n = N` of an expression where the unknown function is `ξ` and the other symbols are read in `ρ`. -/
noncomputable def val (ξ : ℝ → ℝ) (ρ : String → ℝ) (n : String) (e : Expr) (N : ℕ) : ℝ :=
  eval (realInterp ξ) (update ρ n (N : ℝ)) e

/-- `w` bounds `v`. -/
def Ty.bounds : Ty → ℝ → ℝ → Prop
  | .upper, w, v => v ≤ w
  | .lower, w, v => w ≤ v

/-- A comparison that is right whenever it decides about expressions without `n`, and that recognises the rational
values of powers of rational numbers. -/
def CmpOk (ξ : ℝ → ℝ) (ρ : String → ℝ) (n : String) (cmp : Expr → Expr → Cmp) : Prop :=
  (∀ a p k : ℚ, (a : ℝ) = (p : ℝ) ^ (k : ℝ) → cmp (.num a) (powE (.num p) (.num k)) = .equal) ∧
  ∀ x y, has (.sym n) x = false → has (.sym n) y = false →
    match cmp x y with
    | .greater => eval (realInterp ξ) ρ y < eval (realInterp ξ) ρ x
    | .equal => eval (realInterp ξ) ρ x = eval (realInterp ξ) ρ y
    | .less => eval (realInterp ξ) ρ x < eval (realInterp ξ) ρ y
    | .unknown => True

open Classical in
/-- The ideal comparison. -/
noncomputable def idealCmp (ξ : ℝ → ℝ) (ρ : String → ℝ) (x y : Expr) : Cmp :=
  if eval (realInterp ξ) ρ x < eval (realInterp ξ) ρ y then .less
  else if eval (realInterp ξ) ρ x = eval (realInterp ξ) ρ y then .equal else .greater

theorem idealCmp_ok (ξ : ℝ → ℝ) (ρ : String → ℝ) (n : String) : CmpOk ξ ρ n (idealCmp ξ ρ) := by
  refine ⟨fun a p k h => ?_, ?_⟩
  · unfold idealCmp
    rw [eval_powE]
    have : eval (realInterp ξ) ρ (.num a) = (realInterp ξ).pw (eval (realInterp ξ) ρ (.num p)) (eval (realInterp ξ) ρ (.num k)) := by
      simpa [eval, realInterp] using h
    rw [this]
    simp
  intro x y _ _
  unfold idealCmp
  split_ifs with h1 h2
  · exact h1
  · exact h2
  · exact lt_of_le_of_ne (not_lt.1 h1) (Ne.symm h2)

/-! ## The solution in terms of the initial conditions -/

theorem unroll_succ {a : ℝ} {b : ℕ} (hb : 2 ≤ b) (g : ℕ → ℝ) {n : ℕ} (h : b ≤ n) :
    unroll a b g n = g n + a * unroll a b g (n / b) := by
  unfold unroll
  rw [Nat.log_of_one_lt_of_le (by omega) h, sum_range_succ', mul_sum, add_comm]
  congr 1
  · simp
  · apply sum_congr rfl
    intro j _
    rw [Nat.div_div_eq_div_mul, ← pow_succ' b j, pow_succ' a j]; ring

/-- The solution is determined by its values below the divisor. -/
theorem satisfies_unroll {ξ : ℝ → ℝ} {a : ℝ} {b : ℕ} {g : ℕ → ℝ} (hb : 2 ≤ b) (h : Satisfies ξ a b g) :
    ∀ n : ℕ, 1 ≤ n → ξ n = a ^ Nat.log b n * ξ ((n / b ^ Nat.log b n : ℕ) : ℝ) + unroll a b g n := by
  intro n
  induction n using Nat.strong_induction_on with
  | _ n ih =>
    intro hn
    by_cases hlt : n < b
    · rw [Nat.log_of_lt hlt]
      simp [unroll, Nat.log_of_lt hlt]
    · rw [not_lt] at hlt
      have h1 : 1 ≤ n / b := (Nat.one_le_div_iff (by omega)).2 hlt
      have h2 := ih (n / b) (Nat.div_lt_self (by omega) (by omega)) h1
      rw [h n hlt, h2, unroll_succ hb g hlt, Nat.log_of_one_lt_of_le (by omega) hlt, Nat.div_div_eq_div_mul,
        ← pow_succ' b, pow_succ' a]
      ring

/-! ## Values of the expressions -/

section
variable (ξ : ℝ → ℝ) (σ : String → ℝ)

theorem ev_ln (e : Expr) : eval (realInterp ξ) σ (lnE e) = Real.log (eval (realInterp ξ) σ e) := by
  simp [lnE, eval, realInterp, realFn]

theorem ev_pow (x y : Expr) :
    eval (realInterp ξ) σ (powE x y) = (eval (realInterp ξ) σ x) ^ (eval (realInterp ξ) σ y) := by
  rw [eval_powE]; rfl

theorem ev_num (q : ℚ) : eval (realInterp ξ) σ (.num q) = (q : ℝ) := by simp [eval]

end

section
variable (ξ : ℝ → ℝ) (ρ : String → ℝ) (n : String) (N : ℕ)

theorem ev_n : eval (realInterp ξ) (update ρ n (N : ℝ)) (.sym n) = N := by simp [eval]

theorem ev_fracLog (b : ℕ) : eval (realInterp ξ) (update ρ n (N : ℝ)) (fracLog n b) = lg b N := by
  unfold fracLog lg
  rw [eval_divE, ev_ln, ev_ln, ev_n, ev_num]
  push_cast; rfl

variable {N}

theorem ev_powFracLog {a : ℚ} {b : ℕ} (ha : 0 < a) (hb : 2 ≤ b) (hN : 1 ≤ N) :
    eval (realInterp ξ) (update ρ n (N : ℝ)) (powFracLog n a b) = (a : ℝ) ^ lg b N := by
  unfold powFracLog
  rw [ev_pow, eval_divE, ev_ln, ev_ln, ev_n, ev_num, ev_num]
  push_cast
  exact n_rpow_frac hb hN (by exact_mod_cast ha)

theorem has_powE {x y : Expr} (hx : has (.sym n) x = false) (hy : has (.sym n) y = false) :
    has (.sym n) (powE x y) = false := by
  cases x <;> cases y <;> simp only [powE] <;> (try split) <;> (try split) <;>
    simp_all [has]

end

/-! ## Powers of `n` -/

/-- The parameters for which the lower bound of `n^k` is right: the others are in `C39_*_refuted`. -/
def LowerOk (a : ℝ) (b : ℕ) (k : ℝ) : Prop :=
  k = 0 ∨ (1 ≤ k ∧ (b : ℝ) ^ (k - 1) ≤ a) ∨ (k < 1 ∧ (a ≤ 1 ∨ (b : ℝ) ^ k < a))

section
variable {ξ : ℝ → ℝ} {ρ : String → ℝ} {n : String} {cmp : Expr → Expr → Cmp} {a k : ℚ} {b : ℕ}

theorem cmp_pow (hc : CmpOk ξ ρ n cmp) :
    match cmp (.num a) (powE (.num b) (.num k)) with
    | .greater => (b : ℝ) ^ (k : ℝ) < a
    | .equal => (a : ℝ) = (b : ℝ) ^ (k : ℝ)
    | .less => (a : ℝ) < (b : ℝ) ^ (k : ℝ)
    | .unknown => True := by
  have h := hc.2 (.num a) (powE (.num b) (.num k)) (by simp [has]) (has_powE _ (by simp [has]) (by simp [has]))
  rw [ev_pow, ev_num, ev_num, ev_num] at h
  push_cast at h
  exact h

theorem powUpper_sound (hc : CmpOk ξ ρ n cmp) (ha : 0 < a) (hb : 2 ≤ b) (hk : 0 ≤ k) {w : Expr}
    (h : powUpper n cmp a b k = some w) {N : ℕ} (hN : 1 ≤ N) :
    unroll a b (fun m => (m : ℝ) ^ (k : ℝ)) N ≤ val ξ ρ n w N := by
  have ha' : (0 : ℝ) < a := by exact_mod_cast ha
  have hk' : (0 : ℝ) ≤ k := by exact_mod_cast hk
  have hcp := cmp_pow (a := a) (k := k) (b := b) hc
  unfold powUpper at h
  unfold val
  cases hcmp : cmp (.num a) (powE (.num b) (.num k)) with
  | less =>
    rw [hcmp] at hcp
    simp only [hcmp, Option.some.injEq] at h
    subst h
    rw [eval_divE, eval_mulE, eval_subE, ev_pow, ev_pow, ev_num, ev_num, ev_num, ev_n]
    push_cast
    exact upper_lt ha' hb hN hk' hcp
  | equal =>
    rw [hcmp] at hcp
    simp only [hcmp, Option.some.injEq] at h
    subst h
    rw [eval_mulE, ev_pow, ev_num, ev_n, ev_fracLog]
    exact upper_eq ha' hb hN hk' hcp
  | greater =>
    rw [hcmp] at hcp
    simp only [hcmp, Option.some.injEq] at h
    subst h
    rw [eval_divE, eval_mulE, eval_subE, eval_subE, ev_pow, ev_pow, ev_num, ev_num, ev_num, ev_n,
      ev_powFracLog ξ ρ n ha hb hN]
    push_cast
    exact upper_gt ha' hb hN hk' hcp
  | unknown => simp [hcmp] at h

theorem muB_nat (b : ℕ) : muB (b : ℚ) = .num 1 := by simp [muB]
theorem cB_nat (b : ℕ) : cB (b : ℚ) = 1 := by simp [cB]
theorem lambdaB_nat (hb : 2 ≤ b) : lambdaB (b : ℚ) = .num 1 := by
  have : (2 : ℚ) ≤ b := by exact_mod_cast hb
  simp [lambdaB, this]

theorem powLower_sound (hc : CmpOk ξ ρ n cmp) (ha : 0 < a) (hb : 2 ≤ b) (hk : 0 ≤ k) (hok : LowerOk a b k) {w : Expr}
    (h : powLower n cmp a b k = some w) {N : ℕ} (hN : b ≤ N) :
    val ξ ρ n w N ≤ unroll a b (fun m => (m : ℝ) ^ (k : ℝ)) N := by
  have hN1 : 1 ≤ N := by omega
  have ha' : (0 : ℝ) < a := by exact_mod_cast ha
  have hk' : (0 : ℝ) ≤ k := by exact_mod_cast hk
  have hb1 : (1 : ℝ) < b := by exact_mod_cast hb
  have hcp := cmp_pow (a := a) (k := k) (b := b) hc
  have hcp1 := cmp_pow (a := a) (k := k - 1) (b := b) hc
  push_cast at hcp1
  unfold powLower at h
  unfold val
  by_cases hk0 : k = 0
  · simp only [hk0, if_true, Option.some.injEq] at h
    subst h
    subst hk0
    push_cast
    unfold lowZero
    rw [lambdaB_nat hb]
    split_ifs with h1
    · rw [eval_subE, ev_fracLog, ev_num]
      push_cast
      exact lower_zero_one ha' hb hN1 (by exact_mod_cast h1)
    · rw [eval_divE, eval_subE, eval_mulE, ev_powFracLog ξ ρ n ha hb hN1, ev_pow, eval_negE, ev_num, ev_num, ev_num]
      push_cast
      exact lower_zero ha' hb hN1 (by exact_mod_cast h1)
  · simp only [hk0, if_false] at h
    have hk0' : (k : ℝ) ≠ 0 := by exact_mod_cast hk0
    by_cases hk1 : 1 ≤ k
    · have hk1' : (1 : ℝ) ≤ k := by exact_mod_cast hk1
      have hok : (b : ℝ) ^ ((k : ℝ) - 1) ≤ a := by
        rcases hok with h | h | h
        · exact absurd h hk0'
        · exact h.2
        · exact absurd h.1 (not_lt.2 hk1')
      simp only [hk1, if_true] at h
      by_cases c1 : cmp (.num a) (powE (.num b) (.num (k - 1))) = .less
      · rw [c1] at hcp1
        exact absurd hcp1 (not_lt.2 hok)
      · simp only [c1, if_false] at h
        by_cases c2 : cmp (.num a) (powE (.num b) (.num (k - 1))) = .equal
        · rw [c2] at hcp1
          simp only [c2, if_true, Option.some.injEq] at h
          subst h
          unfold lowB
          rw [muB_nat, cB_nat, eval_subE, eval_mulE, eval_mulE, eval_subE, eval_addE, eval_divE, eval_mulE, ev_pow,
            ev_pow, ev_pow, eval_addE, ev_fracLog, ev_n]
          simp only [ev_num]
          push_cast
          rw [one_mul]
          exact lower_B ha' hb hN1 hk1' hN hcp1
        · simp only [c2, if_false] at h
          have hlt : (b : ℝ) ^ ((k : ℝ) - 1) < a ∨ (a : ℝ) = (b : ℝ) ^ ((k : ℝ) - 1) := by
            rcases lt_or_eq_of_le hok with h | h
            · exact Or.inl h
            · exact Or.inr h.symm
          by_cases c3 : cmp (.num a) (powE (.num b) (.num k)) = .less
          · rw [c3] at hcp
            simp only [c3, if_true, Option.some.injEq] at h
            subst h
            rcases hlt with hlt | heq
            · unfold lowC
              rw [muB_nat, cB_nat]
              simp only [eval_addE, eval_subE, eval_mulE, eval_divE, ev_pow, ev_n, ev_num,
                ev_powFracLog ξ ρ n ha hb hN1]
              push_cast
              rw [one_mul, Real.rpow_one]
              exact lower_C ha' hb hN1 hk1' hN hlt hcp
            · exact absurd (hc.1 a b (k - 1) (by push_cast; exact heq)) c2
          · simp only [c3, if_false] at h
            by_cases c4 : cmp (.num a) (powE (.num b) (.num k)) = .equal
            · rw [c4] at hcp
              simp only [c4, if_true, Option.some.injEq] at h
              subst h
              unfold lowD
              rw [muB_nat, cB_nat]
              simp only [eval_addE, eval_subE, eval_mulE, ev_pow, ev_n, ev_num, ev_fracLog]
              push_cast
              rw [one_mul]
              exact lower_D ha' hb hN1 hk1' hN hcp
            · simp [c4] at h
    · have hk1' : (k : ℝ) < 1 := by exact_mod_cast not_le.1 hk1
      have hkp : (0 : ℝ) < k := lt_of_le_of_ne hk' (Ne.symm hk0')
      have hok : (a : ℝ) ≤ 1 ∨ (b : ℝ) ^ (k : ℝ) < a := by
        rcases hok with h | h | h
        · exact absurd h hk0'
        · exact absurd h.1 (not_le.2 hk1')
        · exact h.2
      have hB1 : 1 < (b : ℝ) ^ (k : ℝ) := Real.one_lt_rpow hb1 hkp
      simp only [hk1, if_false] at h
      cases hcmp : cmp (.num a) (powE (.num b) (.num k)) with
      | less =>
        rw [hcmp] at hcp
        simp only [hcmp, Option.some.injEq] at h
        subst h
        have : (a : ℝ) ≤ 1 := by
          rcases hok with h | h
          · exact h
          · exact absurd h (not_lt.2 (le_of_lt hcp))
        unfold lowE
        rw [muB_nat, cB_nat]
        simp only [eval_addE, eval_subE, eval_mulE, eval_divE, ev_pow, ev_n, ev_num, ev_fracLog,
          ev_powFracLog ξ ρ n ha hb hN1]
        push_cast
        rw [Real.one_rpow, one_mul]
        exact lower_E ha' hb hN1 hkp hk1' hN hcp this
      | equal =>
        rw [hcmp] at hcp
        rcases hok with h | h
        · exact absurd h (not_le.2 (by rw [hcp]; exact hB1))
        · exact absurd h (not_lt.2 (le_of_eq hcp))
      | greater =>
        rw [hcmp] at hcp
        simp only [hcmp, Option.some.injEq] at h
        subst h
        unfold lowG
        rw [muB_nat, cB_nat]
        simp only [eval_addE, eval_subE, eval_mulE, eval_divE, ev_pow, ev_n, ev_num, ev_fracLog,
          ev_powFracLog ξ ρ n ha hb hN1]
        push_cast
        rw [Real.one_rpow, one_mul]
        exact lower_G ha' hb hN1 hkp hk1' hN hcp
      | unknown => simp [hcmp] at h

end

/-! ## Logarithms and exponentials -/

section
variable {ξ : ℝ → ℝ} {ρ : String → ℝ} {n : String} {cmp : Expr → Expr → Cmp} {a k c : ℚ} {b : ℕ}

theorem logUpper_sound (ha : 0 < a) (hb : 2 ≤ b) {w : Expr} (h : logBound n .upper a b = some w) {N : ℕ} (hN : 1 ≤ N) :
    unroll a b (fun m => Real.log m) N ≤ val ξ ρ n w N := by
  have ha' : (0 : ℝ) < a := by exact_mod_cast ha
  unfold val
  unfold logBound at h
  by_cases h1 : a = 1
  · simp only [h1, if_true, Option.some.injEq] at h
    subst h
    rw [eval_mulE, eval_mulE, eval_addE, ev_ln, ev_n, ev_fracLog, ev_num, ev_num]
    have := powlog_eq ha' hb hN (k := 0) le_rfl (by rw [Real.rpow_zero]; exact_mod_cast h1)
    simpa using this
  · simp only [h1, if_false, Option.some.injEq] at h
    subst h
    simp only [eval_mulE, eval_divE, eval_subE, ev_ln, ev_n, ev_num, ev_powFracLog ξ ρ n ha hb hN]
    have := powlog_ne ha' hb hN (k := 0) le_rfl (by rw [Real.rpow_zero]; exact_mod_cast h1)
    push_cast
    simpa using this

theorem powLogUpper_sound (hc : CmpOk ξ ρ n cmp) (ha : 0 < a) (hb : 2 ≤ b) (hk : 0 ≤ k) {w : Expr}
    (h : powLogBound n cmp .upper a b k = some w) {N : ℕ} (hN : 1 ≤ N) :
    unroll a b (fun m => (m : ℝ) ^ (k : ℝ) * Real.log m) N ≤ val ξ ρ n w N := by
  have ha' : (0 : ℝ) < a := by exact_mod_cast ha
  have hk' : (0 : ℝ) ≤ k := by exact_mod_cast hk
  have hcp := cmp_pow (a := a) (k := k) (b := b) hc
  have key : (a : ℝ) ≠ (b : ℝ) ^ (k : ℝ) →
      unroll a b (fun m => (m : ℝ) ^ (k : ℝ) * Real.log m) N ≤
      (b : ℝ) ^ (k : ℝ) * Real.log b / (a - (b : ℝ) ^ (k : ℝ)) ^ (2 : ℝ) *
        (a * a ^ lg b N - (a - (b : ℝ) ^ (k : ℝ)) * ((N : ℝ) ^ (k : ℝ) * Real.log N) / Real.log b - a) := by
    intro hne
    refine (powlog_ne ha' hb hN hk' hne).trans ?_
    have hlb := logb_pos hb
    have h1 : (1 : ℝ) ≤ (N : ℝ) ^ (k : ℝ) := Real.one_le_rpow (by exact_mod_cast hN) hk'
    rw [show ((2 : ℝ)) = ((2 : ℕ) : ℝ) by norm_num, Real.rpow_natCast]
    gcongr
    nlinarith
  unfold powLogBound at h
  unfold val
  cases hcmp : cmp (.num a) (powE (.num b) (.num k)) with
  | equal =>
    rw [hcmp] at hcp
    simp only [hcmp, Option.some.injEq] at h
    subst h
    simp only [eval_mulE, eval_addE, ev_pow, ev_ln, ev_n, ev_num, ev_fracLog]
    push_cast
    exact powlog_eq ha' hb hN hk' hcp
  | less =>
    rw [hcmp] at hcp
    simp only [hcmp, Option.some.injEq] at h
    subst h
    simp only [eval_mulE, eval_divE, eval_subE, ev_pow, ev_ln, ev_n, ev_num, ev_powFracLog ξ ρ n ha hb hN]
    push_cast
    exact key (ne_of_lt hcp)
  | greater =>
    rw [hcmp] at hcp
    simp only [hcmp, Option.some.injEq] at h
    subst h
    simp only [eval_mulE, eval_divE, eval_subE, ev_pow, ev_ln, ev_n, ev_num, ev_powFracLog ξ ρ n ha hb hN]
    push_cast
    exact key (ne_of_gt hcp)
  | unknown => simp [hcmp] at h

/-- The bounds for `c^n`; the upper bound with the `gamma` function is not considered. -/
theorem expBound_sound (hcm : CmpOk ξ ρ n cmp) (ha : 0 < a) (hb : 2 ≤ b) (hc : 1 < c) {t : Ty} {w : Expr}
    (hg : t = .upper → (a : ℝ) * (c : ℝ) ^ (b : ℝ) < (c : ℝ) ^ ((b : ℝ) ^ 2))
    (h : expBound n cmp t a b c = some w) {N : ℕ} (hN : b ≤ N) :
    t.bounds (val ξ ρ n w N) (unroll a b (fun m => (c : ℝ) ^ (m : ℝ)) N) := by
  have ha' : (0 : ℝ) < a := by exact_mod_cast ha
  have hc' : (1 : ℝ) < c := by exact_mod_cast hc
  have hN1 : 1 ≤ N := by omega
  unfold expBound at h
  cases t with
  | lower =>
    simp only [Option.some.injEq] at h
    subst h
    unfold val Ty.bounds
    rw [ev_pow, ev_num, ev_n]
    exact exp_lower ha' hb hN1 (by linarith) hN
  | upper =>
    have hg := hg rfl
    simp only at h
    have h1 := hcm.2 (powE (.num c) (powE (.num b) (.num 2))) (mulE (.num a) (powE (.num c) (.num b)))
      (has_powE _ (by simp [has]) (has_powE _ (by simp [has]) (by simp [has])))
      (has_mulE (by simp [has]) (has_powE _ (by simp [has]) (by simp [has])))
    simp only [eval_mulE, ev_pow, ev_num] at h1
    push_cast at h1
    rw [Real.rpow_two] at h1
    cases hcmp : cmp (powE (.num c) (powE (.num b) (.num 2))) (mulE (.num a) (powE (.num c) (.num b))) with
    | greater =>
      simp only [hcmp, Option.some.injEq] at h
      subst h
      unfold val Ty.bounds
      simp only [eval_addE, eval_mulE, eval_divE, eval_subE, ev_pow, ev_n, ev_num]
      push_cast
      rw [Real.rpow_neg_one]
      have := exp_upper ha' hb hN1 hc' hN hg
      rw [div_eq_mul_inv (_ * _)] at this
      exact this
    | equal => rw [hcmp] at h1; simp only at h1; linarith
    | less => rw [hcmp] at h1; simp only at h1; linarith
    | unknown => simp [hcmp] at h

end

/-! ## Coefficients -/

theorem unroll_add (a : ℝ) (b : ℕ) (f g : ℕ → ℝ) (N : ℕ) :
    unroll a b (fun m => f m + g m) N = unroll a b f N + unroll a b g N := by
  unfold unroll
  rw [← sum_add_distrib]
  exact sum_congr rfl fun j _ => by ring

theorem unroll_mul (a : ℝ) (b : ℕ) (c : ℝ) (f : ℕ → ℝ) (N : ℕ) :
    unroll a b (fun m => c * f m) N = c * unroll a b f N := by
  unfold unroll
  rw [mul_sum]
  exact sum_congr rfl fun j _ => by ring

theorem unroll_congr {a : ℝ} {b : ℕ} (hb : 2 ≤ b) {f g : ℕ → ℝ} {N : ℕ} (hN : 1 ≤ N) (h : ∀ m, 1 ≤ m → f m = g m) :
    unroll a b f N = unroll a b g N := by
  unfold unroll
  apply sum_congr rfl
  intro j hj
  rw [h _ (one_le_floor hN (by have := mem_range.1 hj; omega) hb)]

/-- `w` bounds what the term `f` of the inhomogeneous part adds to the solution, at the points in `P`. -/
def Piece (ξ : ℝ → ℝ) (ρ : String → ℝ) (n : String) (a : ℝ) (b : ℕ) (P : ℕ → Prop) (t : Ty) (f : ℕ → ℝ) (w : Expr) : Prop :=
  ∀ N, b ≤ N → P N → t.bounds (val ξ ρ n w N) (unroll a b f N)

section
variable {ξ : ℝ → ℝ} {ρ : String → ℝ} {n : String} {cmp : Expr → Expr → Cmp} {a : ℚ} {b : ℕ} {P : ℕ → Prop} {t : Ty}

theorem val_noSym {e : Expr} (h : has (.sym n) e = false) (N : ℕ) : val ξ ρ n e N = eval (realInterp ξ) ρ e :=
  eval_noSym _ _ _ _ h _

theorem Piece.congr (hb : 2 ≤ b) {f g : ℕ → ℝ} {w : Expr} (h : ∀ m, 1 ≤ m → f m = g m)
    (hp : Piece ξ ρ n a b P t f w) : Piece ξ ρ n a b P t g w := by
  intro N hN hP
  rw [← unroll_congr hb (by omega) h]
  exact hp N hN hP

theorem Piece.add {f g : ℕ → ℝ} {v w : Expr} (h1 : Piece ξ ρ n a b P t f v) (h2 : Piece ξ ρ n a b P t g w) :
    Piece ξ ρ n a b P t (fun m => f m + g m) (addE v w) := by
  intro N hN hP
  have h1 := h1 N hN hP
  have h2 := h2 N hN hP
  rw [unroll_add]
  unfold val at *
  rw [eval_addE]
  cases t <;> simp only [Ty.bounds] at * <;> linarith

theorem Piece.zero : Piece ξ ρ n a b P t (fun _ => 0) (.num 0) := by
  intro N _ _
  unfold val
  rw [ev_num]
  cases t <;> simp [Ty.bounds, unroll]

theorem scaled_sound (hc : CmpOk ξ ρ n cmp) {c : Expr} (hcn : has (.sym n) c = false) {F : Ty → Option Expr}
    {f : ℕ → ℝ} {w : Expr}
    (hup : 0 < eval (realInterp ξ) ρ c → ∀ w, F t = some w → Piece ξ ρ n a b P t f w)
    (hdn : eval (realInterp ξ) ρ c < 0 → ∀ w, F t.swap = some w → Piece ξ ρ n a b P t.swap f w)
    (h : scaled cmp c F t = some w) : Piece ξ ρ n a b P t (fun m => eval (realInterp ξ) ρ c * f m) w := by
  have h1 := hc.2 c (.num 0) hcn (by simp [has])
  rw [ev_num] at h1
  push_cast at h1
  unfold scaled at h
  cases hcmp : cmp c (.num 0) with
  | greater =>
    rw [hcmp] at h1
    simp only [hcmp, Option.map_eq_some_iff] at h
    obtain ⟨v, hv, rfl⟩ := h
    intro N hN hP
    have h2 := hup h1 v hv N hN hP
    rw [unroll_mul]
    unfold val at *
    rw [eval_mulE, eval_noSym _ _ _ _ hcn]
    simp only at h1
    cases t <;> simp only [Ty.bounds] at * <;> exact mul_le_mul_of_nonneg_left h2 h1.le
  | less =>
    rw [hcmp] at h1
    simp only [hcmp, Option.map_eq_some_iff] at h
    obtain ⟨v, hv, rfl⟩ := h
    intro N hN hP
    have h2 := hdn h1 v hv N hN hP
    rw [unroll_mul]
    unfold val at *
    rw [eval_mulE, eval_noSym _ _ _ _ hcn]
    simp only at h1
    cases t <;> simp only [Ty.bounds, Ty.swap] at * <;> nlinarith
  | equal => simp [hcmp] at h
  | unknown => simp [hcmp] at h

theorem isCoeff_noSym {e : Expr} (h : isCoeff n e = true) : has (.sym n) e = false := by
  cases e <;> simp_all [isCoeff, has]

end

/-! ## Products -/

/-- Exponent of a factor that is a power of `n`. -/
def nPow (n : String) : Expr → List ℚ
  | .sym s => if s = n then [1] else []
  | .pow (.sym s) (.num q) => if s = n then [q] else []
  | _ => []

/-- Exponents of the factors that are powers of `n`. -/
def powsOf (n : String) : Expr → List ℚ
  | .mul l => l.flatMap fun f => nPow n f
  | e => nPow n e

/-- The factors `log(n)`. -/
def logsOf (n : String) : Expr → ℕ
  | .mul l => l.count (.fn .log [.sym n])
  | e => [e].count (.fn .log [.sym n])

section
variable {ξ : ℝ → ℝ} {ρ : String → ℝ} {n : String}

theorem nPow_asPow {f : Expr} (hf : f ≠ .sym n) : nPow n f = (asPow n f).toList := by
  cases f with
  | sym s =>
    have : s ≠ n := fun h => hf (by rw [h])
    simp [nPow, asPow, this]
  | pow x y =>
    cases x <;> cases y <;> simp [nPow, asPow]
    split_ifs <;> simp
  | _ => simp [nPow, asPow]

theorem asPow_eq {f : Expr} {q : ℚ} (h : asPow n f = some q) : f = .pow (.sym n) (.num q) := by
  cases f with
  | pow x y =>
    cases x <;> cases y <;> simp [asPow] at h
    obtain ⟨rfl, rfl⟩ := h
    rfl
  | _ => simp [asPow] at h

theorem lnE_ne_sym : lnE (.sym n) ≠ .sym n := by simp [lnE]

theorem val_mul (l : List Expr) (N : ℕ) : val ξ ρ n (.mul l) N = (l.map fun f => val ξ ρ n f N).prod := by
  simp [val, eval]

theorem factorLoop_sound {logs : Bool} (l : List Expr) :
    ∀ {k : ℚ} {c : Expr} {lf : Bool}, factorLoop n true logs l = some (k, c, lf) →
      (l.flatMap fun f => nPow n f).length ≤ 1 → l.count (lnE (.sym n)) ≤ 1 →
      has (.sym n) c = false ∧ ((l.flatMap fun f => nPow n f) = [] ∧ k = 0 ∨ (l.flatMap fun f => nPow n f) = [k]) ∧
        (lf = true ↔ lnE (.sym n) ∈ l) ∧
        ∀ N : ℕ, 1 ≤ N → (l.map fun f => val ξ ρ n f N).prod =
          eval (realInterp ξ) ρ c * ((N : ℝ) ^ (k : ℝ) * (if lf then Real.log N else 1)) := by
  induction l with
  | nil =>
    intro k c lf h _ _
    simp only [factorLoop, List.foldr_nil, Option.some.injEq, Prod.mk.injEq] at h
    obtain ⟨rfl, rfl, rfl⟩ := h
    simp [has, eval]
  | cons f l ih =>
    intro k c lf h hp hl
    have h' : factorStep n true logs f (factorLoop n true logs l) = some (k, c, lf) := h
    cases hr : factorLoop n true logs l with
    | none => rw [hr] at h'; simp [factorStep] at h'
    | some st =>
      obtain ⟨k0, c0, l0⟩ := st
      rw [hr] at h'
      rw [List.flatMap_cons, List.length_append] at hp
      rw [List.count_cons] at hl
      obtain ⟨i1, i2, i3, i4⟩ := ih hr (by omega) (by omega)
      unfold factorStep at h'
      simp only [List.flatMap_cons, List.mem_cons, List.map_cons, List.prod_cons]
      by_cases e1 : logs = true ∧ f = lnE (.sym n)
      · simp only [e1, and_self, if_true, Option.some.injEq, Prod.mk.injEq] at h'
        obtain ⟨rfl, rfl, rfl⟩ := h'
        have hl' : lnE (.sym n) ∉ l := by
          rw [← List.count_eq_zero]
          simp [e1.2] at hl
          simpa using hl
        have hl0 : l0 = false := by
          by_contra hne
          exact hl' (i3.1 (by simpa using hne))
        refine ⟨i1, ?_, by simp [e1.2], ?_⟩
        · rw [e1.2, nPow_asPow lnE_ne_sym]; simpa [asPow, lnE] using i2
        · intro N hN
          rw [i4 N hN, hl0, e1.2]
          have : val ξ ρ n (lnE (.sym n)) N = Real.log N := by unfold val; rw [ev_ln, ev_n]
          rw [this]; simp; ring_nf
      · simp only [e1, if_false] at h'
        have hfl : f ≠ lnE (.sym n) ∨ logs = false := by
          by_contra hcon
          push Not at hcon
          exact e1 ⟨by simpa using hcon.2, hcon.1⟩
        by_cases e2 : f = .sym n
        · simp only [e2, and_self, if_true, Option.some.injEq, Prod.mk.injEq] at h'
          obtain ⟨rfl, rfl, rfl⟩ := h'
          have hnp : nPow n f = [1] := by rw [e2]; simp [nPow]
          rw [hnp] at hp
          have h0 : (l.flatMap fun f => nPow n f) = [] := by
            rw [← List.length_eq_zero_iff]; simp only [List.length_singleton] at hp; omega
          have hk0 : k0 = 0 := by
            rcases i2 with i2 | i2
            · exact i2.2
            · rw [h0] at i2; simp at i2
          refine ⟨i1, Or.inr (by rw [hnp, h0]; rfl), ?_, ?_⟩
          · rw [i3, e2]; simp [lnE]
          · intro N hN
            rw [i4 N hN, e2, hk0]
            have : val ξ ρ n (.sym n) N = N := by unfold val; rw [ev_n]
            rw [this]; simp; ring_nf
        · simp only [e2, and_false, if_false] at h'
          cases hq : asPow n f with
          | some q =>
            simp only [if_true, hq, Option.some.injEq, Prod.mk.injEq] at h'
            obtain ⟨rfl, rfl, rfl⟩ := h'
            have hnp : nPow n f = [q] := by rw [nPow_asPow e2, hq]; rfl
            have hf := asPow_eq hq
            rw [hnp] at hp
            have h0 : (l.flatMap fun f => nPow n f) = [] := by
              rw [← List.length_eq_zero_iff]; simp only [List.length_singleton] at hp; omega
            have hk0 : k0 = 0 := by
              rcases i2 with i2 | i2
              · exact i2.2
              · rw [h0] at i2; simp at i2
            refine ⟨i1, Or.inr (by rw [hnp, h0]; rfl), ?_, ?_⟩
            · rw [i3, hf]; simp [lnE]
            · intro N hN
              rw [i4 N hN, hf, hk0]
              have : val ξ ρ n (.pow (.sym n) (.num q)) N = (N : ℝ) ^ (q : ℝ) := by
                simp [val, eval, realInterp]
              rw [this]; simp; ring_nf
          | none =>
            simp only [if_true, hq] at h'
            split_ifs at h' with hco
            simp only [Option.some.injEq, Prod.mk.injEq] at h'
            obtain ⟨rfl, rfl, rfl⟩ := h'
            have hno := isCoeff_noSym hco
            have hnp : nPow n f = [] := by rw [nPow_asPow e2, hq]; rfl
            have hfln : lnE (.sym n) ≠ f := by
              intro hh
              rw [← hh] at hno
              simp [lnE, has] at hno
            refine ⟨has_mulE i1 hno, by rw [hnp]; exact i2, ?_, ?_⟩
            · rw [i3]; simp [hfln]
            · intro N hN
              rw [i4 N hN, eval_mulE, val_noSym hno]; ring

theorem factorLoop_nolog (l : List Expr) :
    ∀ {k : ℚ} {c : Expr} {lf : Bool}, factorLoop n true false l = some (k, c, lf) → lf = false := by
  induction l with
  | nil =>
    intro k c lf h
    simp only [factorLoop, List.foldr_nil, Option.some.injEq, Prod.mk.injEq] at h
    exact h.2.2.symm
  | cons f l ih =>
    intro k c lf h
    have h' : factorStep n true false f (factorLoop n true false l) = some (k, c, lf) := h
    cases hr : factorLoop n true false l with
    | none => rw [hr] at h'; simp [factorStep] at h'
    | some st =>
      obtain ⟨k0, c0, l0⟩ := st
      rw [hr] at h'
      have := ih hr
      subst this
      simp only [factorStep] at h'
      simp at h'
      by_cases h1 : f = .sym n
      · rw [if_pos h1] at h'; simp at h'; exact h'.2.2
      · rw [if_neg h1] at h'
        cases hq : asPow n f with
        | some q => rw [hq] at h'; simp at h'; exact h'.2.2
        | none => rw [hq] at h'; simp at h'; exact h'.2.2.2

theorem factorLoop_const (l : List Expr) :
    ∀ {k : ℚ} {c : Expr} {lf : Bool}, factorLoop n false false l = some (k, c, lf) →
      has (.sym n) c = false ∧ (l.map fun f => eval (realInterp ξ) ρ f).prod = eval (realInterp ξ) ρ c ∧
        ∀ f ∈ l, has (.sym n) f = false := by
  induction l with
  | nil =>
    intro k c lf h
    simp only [factorLoop, List.foldr_nil, Option.some.injEq, Prod.mk.injEq] at h
    obtain ⟨rfl, rfl, rfl⟩ := h
    simp [has, eval]
  | cons f l ih =>
    intro k c lf h
    have h' : factorStep n false false f (factorLoop n false false l) = some (k, c, lf) := h
    cases hr : factorLoop n false false l with
    | none => rw [hr] at h'; simp [factorStep] at h'
    | some st =>
      obtain ⟨k0, c0, l0⟩ := st
      rw [hr] at h'
      obtain ⟨i1, i2, i3⟩ := ih hr
      simp only [factorStep] at h'
      simp at h'
      obtain ⟨hco, rfl, rfl, rfl⟩ := h'
      have hno := isCoeff_noSym hco
      refine ⟨has_mulE i1 hno, ?_, ?_⟩
      · rw [List.map_cons, List.prod_cons, i2, eval_mulE]; ring
      · intro g hg
        rcases List.mem_cons.1 hg with rfl | hg
        · exact hno
        · exact i3 g hg

end

/-! ## The terms of the inhomogeneous part -/

/-- A term `c n^k`, `c log(n)` or `c n^k log(n)` different from `-n`, whose bound of type `t` does not need one of the
wrong lower bounds. -/
structure TermOk (ξ : ℝ → ℝ) (ρ : String → ℝ) (n : String) (a : ℝ) (b : ℕ) (t : Ty) (poly : Bool) (e : Expr) : Prop where
  one_pow : (powsOf n e).length ≤ 1
  one_log : logsOf n e ≤ 1
  pos : ∀ k ∈ powsOf n e, 0 < k
  not_neg : e ≠ negE (.sym n)
  nonpoly : poly = false → powsOf n e ≠ [] ∨ logsOf n e ≠ 0
  lower : (∀ k ∈ powsOf n e, LowerOk a b k) ∨ (t = .upper ∧ ∀ m : ℕ, 1 ≤ m → 0 ≤ val ξ ρ n e m) ∨
    (t = .lower ∧ ∀ m : ℕ, 1 ≤ m → val ξ ρ n e m ≤ 0)

section
variable {ξ : ℝ → ℝ} {ρ : String → ℝ} {n : String} {cmp : Expr → Expr → Cmp} {a : ℚ} {b : ℕ} {P : ℕ → Prop} {t : Ty}

theorem powBound_sound (hc : CmpOk ξ ρ n cmp) (ha : 0 < a) (hb : 2 ≤ b) {k : ℚ} (hk : 0 ≤ k) {w : Expr}
    (hl : t = .lower → LowerOk a b k) (h : powBound n cmp t a b k = some w) :
    Piece ξ ρ n a b P t (fun m => (m : ℝ) ^ (k : ℝ)) w := by
  intro N hN _
  cases t with
  | upper => exact powUpper_sound hc ha hb hk h (by omega)
  | lower => exact powLower_sound hc ha hb hk (hl rfl) h hN

theorem LowerOk.zero (a : ℝ) (b : ℕ) : LowerOk a b 0 := Or.inl rfl

/-- `c n^k` -/
theorem scaled_pow (hc : CmpOk ξ ρ n cmp) (ha : 0 < a) (hb : 2 ≤ b) {poly : Bool} {e : Expr}
    (ht : TermOk ξ ρ n a b t poly e) {c : Expr} (hcn : has (.sym n) c = false) {k : ℚ}
    (hk : k = 0 ∨ k ∈ powsOf n e)
    (hv : ∀ N : ℕ, 1 ≤ N → val ξ ρ n e N = eval (realInterp ξ) ρ c * (N : ℝ) ^ (k : ℝ)) {w : Expr}
    (h : scaled cmp c (fun t => powBound n cmp t a b k) t = some w) : Piece ξ ρ n a b P t (val ξ ρ n e) w := by
  have hk0 : 0 ≤ k := by
    rcases hk with rfl | hk
    · exact le_rfl
    · exact (ht.pos k hk).le
  have hv1 : val ξ ρ n e 1 = eval (realInterp ξ) ρ c := by rw [hv 1 le_rfl]; simp
  have hlow : (∀ k ∈ powsOf n e, LowerOk a b k) → LowerOk a b k := by
    intro hh
    rcases hk with rfl | hk
    · push_cast; exact LowerOk.zero _ _
    · exact hh k hk
  refine Piece.congr hb (fun m hm => (hv m hm).symm) (scaled_sound hc hcn ?_ ?_ h)
  · intro hpos w hw
    refine powBound_sound hc ha hb hk0 (fun htl => ?_) hw
    rcases ht.lower with hl | hl | hl
    · exact hlow hl
    · rw [htl] at hl; exact absurd hl.1 (by simp)
    · have := hl.2 1 le_rfl
      rw [hv1] at this
      linarith
  · intro hneg w hw
    refine powBound_sound hc ha hb hk0 (fun htl => ?_) hw
    rcases ht.lower with hl | hl | hl
    · exact hlow hl
    · have := hl.2 1 le_rfl
      rw [hv1] at this
      linarith
    · rw [hl.1] at htl; exact absurd htl (by simp [Ty.swap])

theorem sharperPoly_sound (hc : CmpOk ξ ρ n cmp) (ha : 0 < a) (hb : 2 ≤ b) {poly : Bool} {e w : Expr}
    (ht : TermOk ξ ρ n a b t poly e) (h : sharperPoly n cmp t a b e = some w) : Piece ξ ρ n a b P t (val ξ ρ n e) w := by
  unfold sharperPoly at h
  by_cases h1 : isCoeff n e = true
  · simp only [h1, if_true] at h
    have hno := isCoeff_noSym h1
    refine scaled_pow hc ha hb ht hno (k := 0) (Or.inl rfl) ?_ h
    intro N _
    rw [val_noSym hno]; simp
  · rw [if_neg h1] at h
    by_cases h2 : e = .sym n
    · rw [if_pos h2] at h
      subst h2
      have hl : t = .lower → LowerOk a b (1 : ℚ) := by
        intro htl
        rcases ht.lower with hl | hl | hl
        · exact hl 1 (by simp [powsOf, nPow])
        · rw [htl] at hl; exact absurd hl.1 (by simp)
        · have := hl.2 1 le_rfl
          unfold val at this
          rw [ev_n] at this
          norm_num at this
      refine Piece.congr hb ?_ (powBound_sound hc ha hb (by norm_num) hl h)
      intro m _
      unfold val
      rw [ev_n]; simp
    · rw [if_neg h2, if_neg ht.not_neg] at h
      split at h
      · rename_i s k
        split_ifs at h with h3
        obtain ⟨rfl, hk⟩ := h3
        have hv : ∀ m, val ξ ρ s (.pow (.sym s) (.num k)) m = (m : ℝ) ^ (k : ℝ) := by
          intro m; simp [val, eval, realInterp]
        refine Piece.congr hb (fun m _ => (hv m).symm) (powBound_sound hc ha hb hk.le ?_ h)
        intro htl
        rcases ht.lower with hl | hl | hl
        · exact hl k (by simp [powsOf, nPow])
        · rw [htl] at hl; exact absurd hl.1 (by simp)
        · have := hl.2 1 le_rfl
          rw [hv] at this
          norm_num at this
      · rename_i l
        simp only [polyMul] at h
        cases hf : factorLoop n true false l with
        | none => rw [hf] at h; simp at h
        | some st =>
          obtain ⟨k, c, lf⟩ := st
          rw [hf] at h
          simp only at h
          obtain ⟨i1, i2, i3, i4⟩ := factorLoop_sound (ξ := ξ) (ρ := ρ) l hf ht.one_pow ht.one_log
          have hlf : lf = false := factorLoop_nolog l hf
          subst hlf
          refine scaled_pow hc ha hb ht i1 ?_ ?_ h
          · rcases i2 with i2 | i2
            · exact Or.inl i2.2
            · right; show k ∈ l.flatMap _; rw [i2]; simp
          · intro N hN
            rw [val_mul, i4 N hN]; simp
      · simp at h

end

section
variable {ξ : ℝ → ℝ} {ρ : String → ℝ} {n : String} {cmp : Expr → Expr → Cmp} {a : ℚ} {b : ℕ} {P : ℕ → Prop} {t : Ty}

theorem logBound_lower (w : Expr) : logBound n .lower a b ≠ some w := by simp [logBound]
theorem powLogBound_lower (k : ℚ) (w : Expr) : powLogBound n cmp .lower a b k ≠ some w := by simp [powLogBound]

theorem logBound_sound (ha : 0 < a) (hb : 2 ≤ b) {w : Expr} (h : logBound n t a b = some w) :
    Piece ξ ρ n a b P t (fun m => Real.log m) w := by
  intro N hN _
  cases t with
  | upper => exact logUpper_sound ha hb h (by omega)
  | lower => exact absurd h (logBound_lower w)

theorem powLogBound_sound (hc : CmpOk ξ ρ n cmp) (ha : 0 < a) (hb : 2 ≤ b) {k : ℚ} (hk : 0 ≤ k) {w : Expr}
    (h : powLogBound n cmp t a b k = some w) :
    Piece ξ ρ n a b P t (fun m => (m : ℝ) ^ (k : ℝ) * Real.log m) w := by
  intro N hN _
  cases t with
  | upper => exact powLogUpper_sound hc ha hb hk h (by omega)
  | lower => exact absurd h (powLogBound_lower k w)

theorem sharperNoPoly_sound (hc : CmpOk ξ ρ n cmp) (ha : 0 < a) (hb : 2 ≤ b) {e w : Expr}
    (ht : TermOk ξ ρ n a b t false e) (h : sharperNoPoly n cmp t a b e = some w) :
    Piece ξ ρ n a b P t (val ξ ρ n e) w := by
  unfold sharperNoPoly at h
  by_cases h1 : e = lnE (.sym n)
  · rw [if_pos h1] at h
    refine Piece.congr hb (fun m _ => ?_) (logBound_sound ha hb h)
    unfold val
    rw [h1, ev_ln, ev_n]
  · rw [if_neg h1] at h
    split at h
    · rename_i s k
      split_ifs at h with h3
      obtain ⟨rfl, hk⟩ := h3
      have hv : ∀ m, val ξ ρ s (.pow (.sym s) (.num k)) m = (m : ℝ) ^ (k : ℝ) := by
        intro m; simp [val, eval, realInterp]
      refine Piece.congr hb (fun m _ => (hv m).symm) (powBound_sound hc ha hb hk.le ?_ h)
      intro htl
      rcases ht.lower with hl | hl | hl
      · exact hl k (by simp [powsOf, nPow])
      · rw [htl] at hl; exact absurd hl.1 (by simp)
      · have := hl.2 1 le_rfl
        rw [hv] at this
        norm_num at this
    · rename_i l
      simp only [noPolyMul] at h
      cases hf : factorLoop n true true l with
      | none => rw [hf] at h; simp at h
      | some st =>
        obtain ⟨k, c, lf⟩ := st
        rw [hf] at h
        simp only at h
        obtain ⟨i1, i2, i3, i4⟩ := factorLoop_sound (ξ := ξ) (ρ := ρ) l hf ht.one_pow ht.one_log
        by_cases hk : k = 0
        · rw [if_pos hk] at h
          have hlf : lf = true := by
            rw [i3]
            have h0 : powsOf n (.mul l) = [] := by
              rcases i2 with i2 | i2
              · exact i2.1
              · have := ht.pos k (by show k ∈ l.flatMap _; rw [i2]; simp)
                rw [hk] at this
                exact absurd this (lt_irrefl _)
            rcases ht.nonpoly rfl with h1 | h1
            · exact absurd h0 h1
            · by_contra hn
              exact h1 (List.count_eq_zero.2 hn)
          subst hlf
          refine Piece.congr hb (fun m hm => ?_) (scaled_sound hc i1 (fun _ w hw => logBound_sound ha hb hw)
            (fun _ w hw => logBound_sound ha hb hw) h)
          rw [val_mul, i4 m hm, hk]; simp
        · rw [if_neg hk] at h
          have hkm : k ∈ powsOf n (.mul l) := by
            rcases i2 with i2 | i2
            · exact absurd i2.2 hk
            · show k ∈ l.flatMap _; rw [i2]; simp
          cases lf with
          | false =>
            simp only [Bool.not_false, if_true] at h
            refine scaled_pow hc ha hb ht i1 (Or.inr hkm) ?_ h
            intro N hN
            rw [val_mul, i4 N hN]; simp
          | true =>
            simp only [Bool.not_true, Bool.false_eq_true, if_false] at h
            refine Piece.congr hb (fun m hm => ?_) (scaled_sound hc i1
              (fun _ w hw => powLogBound_sound hc ha hb (ht.pos k hkm).le hw)
              (fun _ w hw => powLogBound_sound hc ha hb (ht.pos k hkm).le hw) h)
            rw [val_mul, i4 m hm]; simp
    · simp at h

theorem sharper_sound (hc : CmpOk ξ ρ n cmp) (ha : 0 < a) (hb : 2 ≤ b) {poly : Bool} {e w : Expr}
    (ht : TermOk ξ ρ n a b t poly e) (h : sharper n cmp poly t a b e = some w) :
    Piece ξ ρ n a b P t (val ξ ρ n e) w := by
  cases poly with
  | true => exact sharperPoly_sound hc ha hb ht h
  | false => exact sharperNoPoly_sound hc ha hb ht h

theorem sharperExp_sound (hc : CmpOk ξ ρ n cmp) (ha : 0 < a) (hb : 2 ≤ b) {c : ℚ} (hc1 : 1 < c) {e w : Expr}
    (hg : (a : ℝ) * (c : ℝ) ^ (b : ℝ) < (c : ℝ) ^ ((b : ℝ) ^ 2))
    (h : sharperExp n cmp t a b c e = some w) :
    Piece ξ ρ n a b P t (fun m => (c : ℝ) ^ (m : ℝ) * val ξ ρ n e m) w := by
  have hE : ∀ t w, expBound n cmp t a b c = some w → Piece ξ ρ n a b P t (fun m => (c : ℝ) ^ (m : ℝ)) w :=
    fun t w hw N hN _ => expBound_sound hc ha hb hc1 (fun _ => hg) hw hN
  unfold sharperExp at h
  split_ifs at h with h1 h2
  · have hno := isCoeff_noSym h2
    refine Piece.congr hb (fun m _ => ?_) (scaled_sound hc hno (fun _ w hw => hE _ w hw) (fun _ w hw => hE _ w hw) h)
    rw [val_noSym hno]; ring
  · split at h
    · rename_i l
      cases hf : factorLoop n false false l with
      | none => rw [hf] at h; simp at h
      | some st =>
        obtain ⟨k, f, lf⟩ := st
        rw [hf] at h
        simp only at h
        obtain ⟨i1, i2, i3⟩ := factorLoop_const (ξ := ξ) (ρ := ρ) l hf
        refine Piece.congr hb (fun m _ => ?_) (scaled_sound hc i1 (fun _ w hw => hE _ w hw) (fun _ w hw => hE _ w hw) h)
        rw [val_mul, ← i2, mul_comm]
        congr 2
        exact (List.map_congr_left fun g hg => (val_noSym (i3 g hg) m).symm)
    · simp at h

/-! ## The whole inhomogeneous part -/

/-- The sums of the terms accepted as non-negative and non-decreasing are right at the points in `P`. -/
def SumsOk (ξ : ℝ → ℝ) (ρ : String → ℝ) (n : String) (a : ℚ) (b : ℕ) (P : ℕ → Prop) (S : Sums) : Prop :=
  ∀ t e poly, S.monotone 1 e poly = true → Piece ξ ρ n a b P t (val ξ ρ n e) (sumPart n S t a b e)

theorem mulE_one (e : Expr) : mulE e (.num 1) = e := by
  cases e <;> simp [mulE]

theorem powE_one_n : powE (.num 1) (.sym n) = .num 1 := by simp [powE]

theorem addZero_piece {f : ℕ → ℝ} {w : Expr} (h : Piece ξ ρ n a b P t f w) : Piece ξ ρ n a b P t f (addE (.num 0) w) := by
  have := Piece.add (Piece.zero (ξ := ξ) (ρ := ρ) (n := n) (a := a) (b := b) (P := P) (t := t)) h
  simpa using this

variable {S : Sums}

theorem addendPart_sound (hc : CmpOk ξ ρ n cmp) (ha : 0 < a) (hb : 2 ≤ b) (hS : SumsOk ξ ρ n a b P S) {poly : Bool}
    {e w : Expr} (ht : TermOk ξ ρ n a b t poly e) (h : addendPart n cmp S poly 1 t a b e = some w) :
    Piece ξ ρ n a b P t (val ξ ρ n e) w := by
  unfold addendPart at h
  rw [powE_one_n, mulE_one] at h
  cases hs : sharper n cmp poly t a b e with
  | none =>
    simp only [hs, true_or, if_true, Option.getD_none] at h
    split_ifs at h with hm
    simp only [Option.some.injEq] at h
    subst h
    exact addZero_piece (hS t e poly hm)
  | some v =>
    simp [hs] at h
    subst h
    exact sharper_sound hc ha hb ht hs

theorem singlePart_sound (hc : CmpOk ξ ρ n cmp) (ha : 0 < a) (hb : 2 ≤ b) (hS : SumsOk ξ ρ n a b P S) {poly : Bool}
    {e w : Expr} (ht : e = .num 0 ∨ TermOk ξ ρ n a b t poly e) (h : singlePart n cmp S poly 1 t a b e = some w) :
    Piece ξ ρ n a b P t (val ξ ρ n e) w := by
  unfold singlePart at h
  by_cases h0 : e = .num 0
  · simp [h0] at h
    subst h h0
    refine Piece.congr hb (fun m _ => ?_) Piece.zero
    unfold val; rw [ev_num]; simp
  · simp only [if_neg h0] at h
    cases hs : sharper n cmp poly t a b e with
    | none =>
      simp only [hs, true_or, if_true, Option.getD_none] at h
      split_ifs at h with hm
      simp only [Option.some.injEq] at h
      subst h
      exact addZero_piece (hS t e poly hm)
    | some v =>
      simp [hs] at h
      subst h
      exact sharper_sound hc ha hb (ht.resolve_left h0) hs

theorem addO_eq {x y : Option Expr} {w : Expr} (h : addO x y = some w) :
    ∃ u v, x = some u ∧ y = some v ∧ w = addE u v := by
  cases x <;> cases y <;> simp [addO] at h
  exact ⟨_, _, rfl, rfl, h.symm⟩

theorem partBound_sound (hc : CmpOk ξ ρ n cmp) (ha : 0 < a) (hb : 2 ≤ b) (hS : SumsOk ξ ρ n a b P S) {poly : Bool}
    {e w : Expr} (ht : e = .num 0 ∨ ∀ x ∈ addends e, TermOk ξ ρ n a b t poly x)
    (h : partBound n cmp S poly 1 t a b e = some w) :
    Piece ξ ρ n a b P t (val ξ ρ n e) w := by
  unfold partBound at h
  split at h
  · rename_i l
    have ht : ∀ x ∈ l, TermOk ξ ρ n a b t poly x := by
      rcases ht with ht | ht
      · simp at ht
      · exact ht
    rename_i ht0
    clear ht0
    have hv : ∀ N, val ξ ρ n (.add l) N = (l.map fun f => val ξ ρ n f N).sum := by
      intro N; simp [val, eval]
    refine Piece.congr hb (fun m _ => (hv m).symm) ?_
    clear hv
    induction l generalizing w with
    | nil => simp at h; subst h; simpa using Piece.zero
    | cons x l ih =>
      simp only [List.foldr_cons] at h
      obtain ⟨u, v, hu, hv, rfl⟩ := addO_eq h
      have h1 := ih hu (fun y hy => ht y (List.mem_cons_of_mem _ hy))
      have h2 := addendPart_sound hc ha hb hS (ht x List.mem_cons_self) hv
      refine Piece.congr hb (fun m _ => ?_) (h1.add h2)
      rw [List.map_cons, List.sum_cons]; ring
  · rename_i hne
    refine singlePart_sound hc ha hb hS ?_ h
    rcases ht with ht | ht
    · exact Or.inl ht
    · right
      apply ht
      cases e <;> simp_all [addends]

/-- What is assumed about a term `base^n (poly + no_poly)` of the decomposition: either the base is one and the addends
are as in `TermOk`, or the base is greater than one, the coefficient is a constant and `gamma` is not needed. -/
def DecOk (ξ : ℝ → ℝ) (ρ : String → ℝ) (n : String) (cmp : Expr → Expr → Cmp) (a : ℚ) (b : ℕ) (t : Ty)
    (d : Expr × Expr × Expr) : Prop :=
  (d.1 = .num 1 ∧ (d.2.1 = .num 0 ∨ ∀ x ∈ addends d.2.1, TermOk ξ ρ n a b t true x) ∧
    (d.2.2 = .num 0 ∨ ∀ x ∈ addends d.2.2, TermOk ξ ρ n a b t false x)) ∨
  ∃ c : ℚ, d.1 = .num c ∧ 1 < c ∧ d.2.2 = .num 0 ∧ (a : ℝ) * (c : ℝ) ^ (b : ℝ) < (c : ℝ) ^ ((b : ℝ) ^ 2) ∧
    (sharperExp n cmp t a b c d.2.1).isSome

/-- The value of a term of the decomposition. -/
noncomputable def decVal (ξ : ℝ → ℝ) (ρ : String → ℝ) (n : String) (d : Expr × Expr × Expr) (m : ℕ) : ℝ :=
  (val ξ ρ n d.1 m) ^ (m : ℝ) * (val ξ ρ n d.2.1 m + val ξ ρ n d.2.2 m)

theorem val_num (q : ℚ) (m : ℕ) : val ξ ρ n (.num q) m = q := by unfold val; rw [ev_num]

theorem termBound_sound (hc : CmpOk ξ ρ n cmp) (ha : 0 < a) (hb : 2 ≤ b) (hS : SumsOk ξ ρ n a b P S)
    {d : Expr × Expr × Expr} {w : Expr} (hd : DecOk ξ ρ n cmp a b t d) (h : termBound n cmp S t a b d = some w) :
    Piece ξ ρ n a b P t (decVal ξ ρ n d) w := by
  obtain ⟨d1, d2, d3⟩ := d
  unfold termBound at h
  rcases hd with ⟨h1, h2, h3⟩ | ⟨c, h1, hc1, h3, hg, hsome⟩
  · simp only at h1 h2 h3
    subst h1
    simp only [one_pos, if_true] at h
    obtain ⟨u, v, hu, hv, rfl⟩ := addO_eq h
    refine Piece.congr hb (fun m _ => ?_) ((partBound_sound hc ha hb hS h2 hu).add (partBound_sound hc ha hb hS h3 hv))
    unfold decVal
    rw [val_num]; simp
  · simp only at h1 h3 hsome
    subst h1 h3
    have hc0 : 0 < c := by linarith
    simp only [if_pos hc0, if_neg hc1.ne'] at h
    obtain ⟨u, v, hu, hv, rfl⟩ := addO_eq h
    simp at hv
    subst hv
    have hp : Piece ξ ρ n a b P t (fun m => (c : ℝ) ^ (m : ℝ) * val ξ ρ n d2 m) u := by
      by_cases h0 : d2 = .num 0
      · simp [h0] at hu
        subst hu
        refine Piece.congr hb (fun m _ => ?_) Piece.zero
        rw [h0, val_num]; simp
      · rw [if_neg h0] at hu
        cases hs : sharperExp n cmp t a b c d2 with
        | none => rw [hs] at hsome; simp at hsome
        | some s =>
          simp [hs] at hu
          subst hu
          exact sharperExp_sound hc ha hb hc1 hg hs
    refine Piece.congr hb (fun m _ => ?_) (hp.add Piece.zero)
    unfold decVal
    simp only
    rw [val_num, val_num]; push_cast; ring

theorem nonHomogeneous_sound (hc : CmpOk ξ ρ n cmp) (ha : 0 < a) (hb : 2 ≤ b) (hS : SumsOk ξ ρ n a b P S)
    (ds : List (Expr × Expr × Expr)) : ∀ {w : Expr}, (∀ d ∈ ds, DecOk ξ ρ n cmp a b t d) →
    nonHomogeneous n cmp S t a b ds = some w →
    Piece ξ ρ n a b P t (fun m => (ds.map fun d => decVal ξ ρ n d m).sum) w := by
  induction ds with
  | nil => intro w _ h; simp [nonHomogeneous] at h; subst h; simpa using Piece.zero
  | cons d ds ih =>
    intro w hd h
    obtain ⟨u, v, hu, hv, rfl⟩ := addO_eq (x := nonHomogeneous n cmp S t a b ds) h
    refine Piece.congr hb (fun m _ => ?_) ((ih (fun y hy => hd y (List.mem_cons_of_mem _ hy)) hu).add
      (termBound_sound hc ha hb hS (hd d List.mem_cons_self) hv))
    rw [List.map_cons, List.sum_cons]; ring

/-! ## The term with the initial conditions -/

theorem floor_lg (hb : 2 ≤ b) {N : ℕ} (hN : 1 ≤ N) : ⌊lg b N⌋ = (Nat.log b N : ℤ) := by
  rw [Int.floor_eq_iff]
  exact ⟨by exact_mod_cast q_le_lg hb hN, by exact_mod_cast lg_lt_q hb hN⟩

theorem initialTerm_sound (ha : 0 < a) (hb : 2 ≤ b) {c : ℕ} (hc : c ≤ 1) {N : ℕ} (hN : 1 ≤ N)
    (hpos : ∀ i : ℕ, 1 ≤ i → i < b → 0 ≤ ξ i) :
    t.bounds (val ξ ρ n (initialTerm n t c a b) N) ((a : ℝ) ^ Nat.log b N * ξ ((N / b ^ Nat.log b N : ℕ) : ℝ)) := by
  have ha' : (0 : ℝ) < a := by exact_mod_cast ha
  have hdig1 : 1 ≤ N / b ^ Nat.log b N := one_le_floor hN le_rfl hb
  have hdig2 : N / b ^ Nat.log b N < b := by
    rw [Nat.div_lt_iff_lt_mul (by positivity), ← pow_succ']
    exact Nat.lt_pow_succ_log_self (by omega) N
  have hx := hpos _ hdig1 hdig2
  have hL := q_le_lg hb hN
  have hL' := lg_lt_q hb hN
  have hidx : ∀ idx : Expr, idx = (if (b : ℚ) = 2 then (if 1 < c then .num c else .num 1) else .fn .sc [.sym n, .num b]) →
      val ξ ρ n (.fn .x [idx]) N = ξ ((N / b ^ Nat.log b N : ℕ) : ℝ) := by
    intro idx hi
    have hcc : ¬ 1 < c := by omega
    by_cases h2 : (b : ℚ) = 2
    · have h2' : b = 2 := by exact_mod_cast h2
      rw [if_pos h2, if_neg hcc] at hi
      subst hi
      have : N / b ^ Nat.log b N = 1 := by omega
      rw [this]
      simp [val, eval, realInterp, realFn]
    · rw [if_neg h2] at hi
      subst hi
      have e : val ξ ρ n (.fn .x [.fn .sc [.sym n, .num b]]) N =
          ξ ((⌊(N : ℝ) / (b : ℝ) ^ ⌊Real.log N / Real.log b⌋⌋ : ℤ) : ℝ) := by
        simp [val, eval, realInterp, realFn]
      rw [e]
      have hf := floor_lg hb hN
      unfold lg at hf
      rw [hf, zpow_natCast]
      congr 1
      have : ⌊(N : ℝ) / (b : ℝ) ^ Nat.log b N⌋ = ((N / b ^ Nat.log b N : ℕ) : ℤ) := by
        have h3 : (N : ℝ) / (b : ℝ) ^ Nat.log b N = (N : ℝ) / ((b ^ Nat.log b N : ℕ) : ℝ) := by push_cast; rfl
        rw [h3, Int.floor_eq_iff]
        constructor
        · exact_mod_cast Nat.cast_div_le
        · rw [div_lt_iff₀ (by positivity)]
          have := Nat.lt_mul_div_succ N (show 0 < b ^ Nat.log b N by positivity)
          rw [mul_comm] at this
          exact_mod_cast this
      rw [this]; exact Int.cast_natCast _
  have hq : (a : ℝ) ^ Nat.log b N = (a : ℝ) ^ ((Nat.log b N : ℕ) : ℝ) := (Real.rpow_natCast _ _).symm
  have hval : val ξ ρ n (initialTerm n t c a b) N =
      (a : ℝ) ^ (if (a < 1 ∧ t = .upper) ∨ (1 < a ∧ t = .lower) then lg b N - 1 else lg b N) *
        ξ ((N / b ^ Nat.log b N : ℕ) : ℝ) := by
    unfold initialTerm
    simp only
    rw [← hidx _ rfl]
    unfold val
    rw [eval_mulE, ev_pow, ev_num]
    split_ifs
    all_goals first
      | rw [eval_subE, ev_fracLog, ev_num]; push_cast; rfl
      | rw [ev_fracLog]
  rw [hval, hq]
  cases t with
  | upper =>
    simp only [Ty.bounds, and_true, reduceCtorEq, and_false, or_false]
    apply mul_le_mul_of_nonneg_right _ hx
    split_ifs with h1
    · exact Real.rpow_le_rpow_of_exponent_ge ha' (by exact_mod_cast h1.le) (by linarith)
    · exact Real.rpow_le_rpow_of_exponent_le (by exact_mod_cast not_lt.1 h1) hL
  | lower =>
    simp only [Ty.bounds, and_true, reduceCtorEq, and_false, false_or]
    apply mul_le_mul_of_nonneg_right _ hx
    split_ifs with h1
    · exact Real.rpow_le_rpow_of_exponent_le (by exact_mod_cast h1.le) (by linarith)
    · exact Real.rpow_le_rpow_of_exponent_ge ha' (by exact_mod_cast not_lt.1 h1) hL

end

end Purrs.Bounds
