import Verif.Model.NonLinearBounds
import Verif.Props.BoundsRefuted
import Verif.Props.NonLinear
import Verif.Props.OnIC

/-!
# Properties of the bounds for `x(n) = x(n/b)^a`
-/

set_option linter.unusedSectionVars false

namespace Purrs.NonLinear

open Purrs.Bounds (val lg initialTerm fracLog Ty initialTerm_sound satisfies_unroll Satisfies exists_solution approximate ev_num ev_pow ev_fracLog)
open WeightedAvg (hasX_addE hasX_mulE hasX_powE)
open OrderRed (withX eval_x eval_noX)
open Function (update)

/-! ## Specification -/

/-- `x(n) = x(n/b)^a`, with the quotient rounded down, from `b` on. -/
def PowerEq (ξ : ℝ → ℝ) (a : ℝ) (b : ℕ) : Prop := ∀ m : ℕ, b ≤ m → ξ m = ξ ((m / b : ℕ) : ℝ) ^ a

/-- What is promised: `e` bounds `v` in the sense asked for. -/
def Want.bounds : Want → ℝ → ℝ → Prop
  | .lower, e, v => e ≤ v
  | .upper, e, v => v ≤ e
  | .exact, e, v => e = v

/-! ## Proofs -/

theorem withX_real (ξ : ℝ → ℝ) : withX (realInterp 0) ξ = realInterp ξ := by
  unfold withX realInterp
  congr 1
  funext f l
  cases f <;> (rcases l with _ | ⟨a, _ | ⟨b, _ | ⟨c, l⟩⟩⟩ <;> rfl)

theorem related (a : ℚ) (ξ : ℝ → ℝ) : Related (realInterp 0) (.num a) .argumentLog (logOf a ξ) ξ := by
  intro v ρ
  simp [eval, logOf, realInterp, realFn, div_eq_mul_inv, Real.rpow_neg_one]

theorem xflat_mulE {a b : Expr} (ha : xflat a = true) (hb : xflat b = true) : xflat (mulE a b) = true := by
  cases a <;> cases b <;> simp only [mulE] <;> (try split) <;> (try split) <;> simp_all [xflat]

theorem xflat_addE {a b : Expr} (ha : xflat a = true) (hb : xflat b = true) : xflat (addE a b) = true := by
  cases a <;> cases b <;> simp only [addE] <;> (try split) <;> (try split) <;> simp_all [xflat]

/-- The value of the bound of the associated recurrence is linear in the logarithms. -/
theorem initialTerm_split (n : String) (t : Ty) (c : ℕ) (a b : ℚ) : ∃ p idx, hasX p = false ∧ xflat p = true ∧ hasX idx = false ∧
    initialTerm n t c a b = mulE p (.fn .x [idx]) := by
  unfold initialTerm
  refine ⟨_, _, ?_, ?_, ?_, rfl⟩
  · refine hasX_powE (by simp [hasX]) ?_
    have hf : hasX (fracLog n b) = false := by
      unfold fracLog WeightedAvg.divE Bounds.lnE
      exact hasX_mulE (by simp [hasX]) (hasX_powE (by simp [hasX]) (by simp [hasX]))
    split_ifs
    · exact hasX_addE hf (hasX_mulE (by simp [hasX]) (by simp [hasX]))
    · exact hf
  · refine xflat_powE (by simp [xflat]) ?_
    have hf : xflat (fracLog n b) = true := by
      unfold fracLog WeightedAvg.divE Bounds.lnE
      exact xflat_mulE (by simp [xflat]) (xflat_powE (by simp [xflat]) (by simp [xflat]))
    split_ifs
    · exact xflat_addE hf (xflat_mulE (by simp [xflat]) (by simp [xflat]))
    · exact hf
  · split_ifs <;> simp [hasX]

theorem xflat_initialTerm (n : String) (t : Ty) (c : ℕ) (a b : ℚ) : xflat (initialTerm n t c a b) = true := by
  obtain ⟨p, idx, _, h1, h2, h3⟩ := initialTerm_split n t c a b
  rw [h3]
  refine xflat_mulE h1 (by simp [xflat, h2])

theorem val_initialTerm_scale (ξ : ℝ → ℝ) (κ : ℝ) (ρ : String → ℝ) (n : String) (t : Ty) (c : ℕ) (a b : ℚ) (N : ℕ) :
    val (fun v => ξ v / κ) ρ n (initialTerm n t c a b) N = val ξ ρ n (initialTerm n t c a b) N / κ := by
  obtain ⟨p, idx, h1, _, h2, h3⟩ := initialTerm_split n t c a b
  rw [h3]
  unfold val
  rw [← withX_real ξ, ← withX_real (fun v => ξ v / κ), eval_mulE, eval_mulE, eval_x, eval_x, eval_noX _ (fun v => ξ v / κ) ξ p h1,
    eval_noX _ (fun v => ξ v / κ) ξ idx h2]
  ring

/-- The bound, before the simplifications. -/
theorem power_val (ξ : ℝ → ℝ) (ρ : String → ℝ) (n : String) (t : Ty) (c : ℕ) {a b : ℚ} (ha : 0 < a) (ha1 : a ≠ 1) (N : ℕ) :
    val ξ ρ n (substX (.num a) .argumentLog (powE (.num a) (initialTerm n t c a b))) N =
      Real.exp (val (fun v => Real.log (ξ v)) ρ n (initialTerm n t c a b) N) := by
  have haR : (0 : ℝ) < a := by exact_mod_cast ha
  have hl : Real.log a ≠ 0 := Real.log_ne_zero_of_pos_of_ne_one haR (by exact_mod_cast ha1)
  have h1 : val ξ ρ n (substX (.num a) .argumentLog (powE (.num a) (initialTerm n t c a b))) N =
      (a : ℝ) ^ val (logOf a ξ) ρ n (initialTerm n t c a b) N := by
    unfold val
    rw [← withX_real ξ, eval_substX _ _ _ (logOf a ξ) ξ (related a ξ) _ (xflat_powE (by simp [xflat]) (xflat_initialTerm n t c a b)),
      withX_real, ev_pow, ev_num]
  have h2 : logOf (a : ℝ) ξ = fun v => Real.log (ξ v) / Real.log a := rfl
  rw [h1, h2, val_initialTerm_scale (fun v => Real.log (ξ v)), Real.rpow_def_of_pos haR]
  congr 1
  field_simp

theorem approx_hom (n : String) (cmp : Expr → Expr → Bounds.Cmp) (S : Bounds.Sums) (t : Ty) {a : ℚ} {b : ℕ} (c : ℕ) (ha : 0 < a) (hb : 2 ≤ b) :
    approximate n cmp S t (.num a) b (.num 0) [] c = some (addE (.num 0) (initialTerm n t c a b)) := by
  have hb1 : ¬ (b : ℚ) < 1 := by
    push Not
    exact_mod_cast (by omega : 1 ≤ b)
  simp [approximate, ha, hb1, hasParameters]

theorem addE_zero (e : Expr) : addE (.num 0) e = e := by
  cases e <;> simp [addE]

/-- Positive sequences: the logarithm of the sequence in terms of its initial values. -/
theorem power_unroll {ξ : ℝ → ℝ} {a : ℝ} {b : ℕ} (hb : 2 ≤ b) (h : PowerEq ξ a b) (hpos : ∀ i : ℕ, 1 ≤ i → i < b → 0 < ξ i)
    {N : ℕ} (hN : 1 ≤ N) : 0 < ξ N ∧ Real.log (ξ N) = a ^ Nat.log b N * Real.log (ξ ((N / b ^ Nat.log b N : ℕ) : ℝ)) := by
  have hp : ∀ m : ℕ, 1 ≤ m → 0 < ξ m := by
    intro m
    induction m using Nat.strong_induction_on with
    | _ m ih =>
      intro hm
      by_cases hmb : m < b
      · exact hpos m hm hmb
      · rw [h m (by omega)]
        exact Real.rpow_pos_of_pos (ih _ (Nat.div_lt_self (by omega) (by omega)) (Nat.div_pos (by omega) (by omega))) _
  refine ⟨hp N hN, ?_⟩
  have hs : Satisfies (fun v => Real.log (ξ v)) a b (fun _ => 0) := by
    intro m hm
    show Real.log (ξ m) = a * Real.log (ξ ((m / b : ℕ) : ℝ)) + 0
    rw [h m hm, Real.log_rpow (hp _ (Nat.div_pos hm (by omega))), add_zero]
  have := satisfies_unroll hb hs N hN
  rw [this]
  simp [Bounds.unroll]

/-- The bound asked for. -/
def Want.ty : Want → Ty
  | .upper => .upper
  | _ => .lower

theorem powerBound_some (n : String) (cmp : Expr → Expr → Bounds.Cmp) (S : Bounds.Sums) (simp : Expr → Expr) {a : ℚ} {b : ℕ} (c : ℕ) (ha : 0 < a)
    (hb : 2 ≤ b) (w : Want) (hw : w ≠ .exact) :
    powerBound n cmp S simp a b c w = some (simp (substX (.num a) .argumentLog (powE (.num a) (initialTerm n w.ty c a b)))) := by
  unfold powerBound
  rw [approx_hom n cmp S .lower c ha hb, approx_hom n cmp S .upper c ha hb, addE_zero, addE_zero]
  cases w <;> simp_all [nonLinearFunctional, backBound, Want.ty]

section
variable {ξ : ℝ → ℝ} {ρ : String → ℝ} {n : String} {cmp : Expr → Expr → Bounds.Cmp} {S : Bounds.Sums} {simp : Expr → Expr} {a : ℚ} {b c : ℕ}

/-- **C123.**  Let `x(n) = x(n/b)^a` from `b` on, with a rational `a > 0`, `a ≠ 1` and initial values not below `1`.  Then both
bounds are computed and are correct at every `n ≥ 1`. -/
theorem C123_power_bounds (ha : 0 < a) (ha1 : a ≠ 1) (hb : 2 ≤ b) (hc : c ≤ 1) (h : PowerEq ξ a b)
    (hpos : ∀ i : ℕ, 1 ≤ i → i < b → 1 ≤ ξ i) (hsimp : ∀ e (N : ℕ), val ξ ρ n (simp e) N = val ξ ρ n e N) :
    ∃ l u, powerBound n cmp S simp a b c .lower = some l ∧ powerBound n cmp S simp a b c .upper = some u ∧
      ∀ N : ℕ, 1 ≤ N → val ξ ρ n l N ≤ ξ N ∧ ξ N ≤ val ξ ρ n u N := by
  refine ⟨_, _, powerBound_some n cmp S simp c ha hb .lower (by simp), powerBound_some n cmp S simp c ha hb .upper (by simp), fun N hN => ?_⟩
  obtain ⟨h1, h2⟩ := power_unroll hb h (fun i hi hib => lt_of_lt_of_le one_pos (hpos i hi hib)) hN
  have key : ∀ t : Ty, t.bounds (val (fun v => Real.log (ξ v)) ρ n (initialTerm n t c a b) N) (Real.log (ξ N)) := by
    intro t
    rw [h2]
    exact initialTerm_sound (ξ := fun v => Real.log (ξ v)) ha hb hc hN fun i hi hib => Real.log_nonneg (hpos i hi hib)
  constructor
  · rw [hsimp, power_val ξ ρ n _ c ha ha1, ← Real.le_log_iff_exp_le h1]
    exact key .lower
  · rw [hsimp, power_val ξ ρ n _ c ha ha1, ← Real.log_le_iff_le_exp h1]
    exact key .upper

/-- **C122** (part).  If the initial values are positive but not above `1`, the two bounds are exchanged: the one reported as
lower is an upper bound and conversely. -/
theorem C122_exchanged_partial (ha : 0 < a) (ha1 : a ≠ 1) (hb : 2 ≤ b) (hc : c ≤ 1) (h : PowerEq ξ a b)
    (hpos : ∀ i : ℕ, 1 ≤ i → i < b → 0 < ξ i ∧ ξ i ≤ 1) (hsimp : ∀ e (N : ℕ), val ξ ρ n (simp e) N = val ξ ρ n e N) :
    ∃ l u, powerBound n cmp S simp a b c .lower = some l ∧ powerBound n cmp S simp a b c .upper = some u ∧
      ∀ N : ℕ, 1 ≤ N → val ξ ρ n u N ≤ ξ N ∧ ξ N ≤ val ξ ρ n l N := by
  refine ⟨_, _, powerBound_some n cmp S simp c ha hb .lower (by simp), powerBound_some n cmp S simp c ha hb .upper (by simp), fun N hN => ?_⟩
  obtain ⟨h1, h2⟩ := power_unroll hb h (fun i hi hib => (hpos i hi hib).1) hN
  have hn : ∀ t : Ty, val (fun v => Real.log (ξ v)) ρ n (initialTerm n t c a b) N = - val (fun v => - Real.log (ξ v)) ρ n (initialTerm n t c a b) N := by
    intro t
    have := val_initialTerm_scale (fun v => Real.log (ξ v)) (-1) ρ n t c a b N
    simp only [div_neg, div_one] at this
    rw [this, neg_neg]
  have key : ∀ t : Ty, t.bounds (val (fun v => - Real.log (ξ v)) ρ n (initialTerm n t c a b) N) (- Real.log (ξ N)) := by
    intro t
    rw [h2, ← mul_neg]
    exact initialTerm_sound (ξ := fun v => - Real.log (ξ v)) ha hb hc hN fun i hi hib => by
      have := Real.log_nonpos (hpos i hi hib).1.le (hpos i hi hib).2
      linarith
  constructor
  · rw [hsimp, power_val ξ ρ n _ c ha ha1, ← Real.le_log_iff_exp_le h1, hn]
    have := key .upper
    simp only [Bounds.Ty.bounds] at this
    show - val _ ρ n (initialTerm n .upper c a b) N ≤ _
    linarith
  · rw [hsimp, power_val ξ ρ n _ c ha ha1, ← Real.log_le_iff_le_exp h1, hn]
    have := key .lower
    simp only [Bounds.Ty.bounds] at this
    show _ ≤ - val _ ρ n (initialTerm n .lower c a b) N
    linarith

end

/-- The two terms of the initial condition have different values. -/
theorem initialTerm_apart (n : String) (ρ : String → ℝ) {a : ℚ} {b : ℕ} (c : ℕ) (ha : 0 < a) (ha1 : a ≠ 1) :
    val (fun _ => 1) ρ n (initialTerm n .lower c a b) 1 ≠ val (fun _ => 1) ρ n (initialTerm n .upper c a b) 1 := by
  have haR : (0 : ℝ) < a := by exact_mod_cast ha
  intro h2
  have hv : ∀ t : Ty, val (fun _ => 1) ρ n (initialTerm n t c a b) 1 =
      (a : ℝ) ^ (if (a < 1 ∧ t = .upper) ∨ (1 < a ∧ t = .lower) then lg b 1 - 1 else lg b 1) := by
    intro t
    unfold initialTerm
    simp only
    unfold val
    rw [eval_mulE, ev_pow, ev_num]
    have hx : ∀ idx, eval (realInterp fun _ => 1) (update ρ n ((1 : ℕ) : ℝ)) (.fn .x [idx]) = 1 := by
      intro idx; simp [eval, realInterp, realFn]
    rw [hx, mul_one]
    split_ifs
    · rw [eval_subE, ev_fracLog, ev_num]; push_cast; rfl
    · rw [ev_fracLog]; push_cast; rfl
  simp only [hv] at h2
  have hlg : lg b 1 = 0 := by simp [lg]
  rw [hlg] at h2
  rcases lt_or_gt_of_ne ha1 with h3 | h3
  · simp [h3, not_lt.2 h3.le] at h2
    rw [Real.rpow_neg_one] at h2
    have : (a : ℝ) = 1 := by
      have := congrArg (·⁻¹) h2
      simpa using this.symm
    exact ha1 (by exact_mod_cast this)
  · simp [h3, not_lt.2 h3.le] at h2
    rw [Real.rpow_neg_one] at h2
    have : (a : ℝ) = 1 := by
      have := congrArg (·⁻¹) h2
      simpa using this
    exact ha1 (by exact_mod_cast this)

/-- The exact solution is not reported (the code would answer `0`): the two bounds are different. -/
theorem C122_exact_partial (n : String) (cmp : Expr → Expr → Bounds.Cmp) (S : Bounds.Sums) (simp : Expr → Expr) {a : ℚ} {b : ℕ} (c : ℕ)
    (ha : 0 < a) (ha1 : a ≠ 1) (hb : 2 ≤ b) : powerBound n cmp S simp a b c .exact = none := by
  have hne : initialTerm n .lower c a b ≠ initialTerm n .upper c a b := fun h =>
    initialTerm_apart n (fun _ => 0) (b := b) c ha ha1 (by rw [h])
  unfold powerBound
  rw [approx_hom n cmp S .lower c ha hb, approx_hom n cmp S .upper c ha hb, addE_zero, addE_zero]
  simp [nonLinearFunctional, hne]

/-- Sequences with given initial values. -/
theorem exists_power (a : ℝ) {b : ℕ} (hb : 2 ≤ b) (init : ℕ → ℝ) (hi : ∀ i, 0 < init i) :
    ∃ ξ : ℝ → ℝ, PowerEq ξ a b ∧ ∀ i : ℕ, 1 ≤ i → i < b → ξ i = init i := by
  obtain ⟨η, h1, h2⟩ := exists_solution a hb (fun _ => 0) fun i => Real.log (init i)
  refine ⟨fun v => Real.exp (η v), fun m hm => ?_, fun i h3 h4 => ?_⟩
  · show Real.exp (η m) = Real.exp (η ((m / b : ℕ) : ℝ)) ^ a
    rw [h1 m hm, add_zero, ← Real.exp_mul, mul_comm]
  · show Real.exp (η i) = init i
    rw [h2 i h3 h4, Real.exp_log (hi i)]

/-- **C122.**  The bounds of `x(n) = x(n/2)^2` are wrong for `x(1) = 1/2`: at `n = 2` the value is `1/4`, the lower bound
`1/2`. -/
theorem C122_bounds_refuted (cmp : Expr → Expr → Bounds.Cmp) (S : Bounds.Sums) (ρ : String → ℝ) :
    ∃ ξ : ℝ → ℝ, PowerEq ξ 2 2 ∧ ξ 1 = 1 / 2 ∧ ∃ l, powerBound "n" cmp S id 2 2 0 .lower = some l ∧ ¬ val ξ ρ "n" l 2 ≤ ξ 2 := by
  obtain ⟨ξ, h1, h2⟩ := exists_power 2 (b := 2) le_rfl (fun _ => 1 / 2) (by norm_num)
  have h3 : ξ 1 = 1 / 2 := by simpa using h2 1 le_rfl (by norm_num)
  refine ⟨ξ, h1, h3, _, powerBound_some "n" cmp S id (a := 2) (b := 2) 0 (by norm_num) le_rfl .lower (by simp), ?_⟩
  have h4 : ξ 2 = 1 / 4 := by
    have := h1 2 le_rfl
    norm_num [h3] at this ⊢
    exact this
  show ¬ val ξ ρ "n" (substX (.num 2) .argumentLog (powE (.num 2) (initialTerm "n" .lower 0 2 2))) 2 ≤ ξ 2
  rw [power_val ξ ρ "n" .lower 0 (by norm_num) (by norm_num) 2, h4]
  have hv : val (fun v => Real.log (ξ v)) ρ "n" (initialTerm "n" .lower 0 2 2) 2 = Real.log (1 / 2) := by
    have hf : eval (realInterp fun v => Real.log (ξ v)) (update ρ "n" ((2 : ℕ) : ℝ)) (fracLog "n" 2) = 1 := by
      have := ev_fracLog (ξ := fun v => Real.log (ξ v)) (ρ := ρ) (n := "n") (N := 2) 2
      push_cast at this ⊢
      rw [this, lg]
      push_cast
      exact div_self (Real.log_pos (by norm_num)).ne'
    unfold val initialTerm
    simp only [lt_self_iff_false, and_false, or_false, if_true, Nat.not_lt_zero, if_false, and_true]
    rw [eval_mulE, ev_pow, ev_num, if_pos (by norm_num), eval_subE, hf, ev_num]
    simp [eval, realInterp, realFn, h3]
  rw [hv, Real.exp_log (by norm_num)]
  norm_num

/-- The hypotheses of `C123_power_bounds` are met by `x(n) = x(n/3)^(3/2)`, `x(1) = x(2) = 2`. -/
theorem C123_nonvacuous (cmp : Expr → Expr → Bounds.Cmp) (S : Bounds.Sums) (ρ : String → ℝ) :
    ∃ ξ : ℝ → ℝ, PowerEq ξ ((3 / 2 : ℚ) : ℝ) 3 ∧ ξ 1 = 2 ∧ ξ 2 = 2 ∧ (∀ i : ℕ, 1 ≤ i → i < 3 → 1 ≤ ξ i) ∧
      ∃ l u, powerBound "n" cmp S id (3 / 2) 3 1 .lower = some l ∧ powerBound "n" cmp S id (3 / 2) 3 1 .upper = some u ∧
        ∀ N : ℕ, 1 ≤ N → val ξ ρ "n" l N ≤ ξ N ∧ ξ N ≤ val ξ ρ "n" u N := by
  obtain ⟨ξ, h1, h2⟩ := exists_power ((3 / 2 : ℚ) : ℝ) (b := 3) (by norm_num) (fun _ => 2) (by norm_num)
  have h3 : ∀ i : ℕ, 1 ≤ i → i < 3 → 1 ≤ ξ i := fun i hi hi3 => by rw [h2 i hi hi3]; norm_num
  exact ⟨ξ, h1, by simpa using h2 1 le_rfl (by norm_num), by simpa using h2 2 (by norm_num) (by norm_num), h3,
    C123_power_bounds (by norm_num) (by norm_num) (by norm_num) le_rfl h1 h3 fun _ _ => rfl⟩

end Purrs.NonLinear
