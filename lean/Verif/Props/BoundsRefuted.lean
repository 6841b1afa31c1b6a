import Verif.Props.BoundsMain

/-!
# C38, C39: counterexamples and concrete cases
-/

set_option linter.unusedSectionVars false

namespace Purrs.Bounds

open Purrs Purrs.WeightedAvg Finset
open Function (update update_of_ne update_self)

/-- Every equation has a solution with given initial conditions. -/
theorem exists_solution (a : ℝ) {b : ℕ} (hb : 2 ≤ b) (g : ℕ → ℝ) (init : ℕ → ℝ) :
    ∃ ξ : ℝ → ℝ, Satisfies ξ a b g ∧ ∀ i : ℕ, 1 ≤ i → i < b → ξ i = init i := by
  refine ⟨fun r => a ^ Nat.log b ⌊r⌋₊ * init (⌊r⌋₊ / b ^ Nat.log b ⌊r⌋₊) + unroll a b g ⌊r⌋₊, ?_, ?_⟩
  · intro m hm
    simp only [Nat.floor_natCast]
    rw [unroll_succ hb g hm, Nat.log_of_one_lt_of_le (by omega) hm, Nat.div_div_eq_div_mul, ← pow_succ' b, pow_succ' a]
    ring
  · intro i h1 h2
    simp only [Nat.floor_natCast]
    rw [Nat.log_of_lt h2]
    simp [unroll, Nat.log_of_lt h2]

section
variable {ξ : ℝ → ℝ} {ρ : String → ℝ} {n : String} {cmp : Expr → Expr → Cmp} {a : ℚ} {b : ℕ} {t : Ty}
  {S : Sums} {w : Expr} {c : ℕ}

theorem negE_n : negE (.sym n) = .mul [.num (-1), .sym n] := by
  simp [negE, mulE]; norm_num

/-- An equation whose inhomogeneous term is a single term with a sharper bound. -/
theorem approx_single (ha : 0 < a) (hb : 2 ≤ b) {g v : Expr} (hg : g ≠ .num 0) (hadd : ∀ l, g ≠ .add l)
    (hp : hasParameters n g = false) (h : sharperPoly n cmp t a b g = some v) :
    ∃ w, approximate n cmp S t (.num a) b g [(.num 1, g, .num 0)] c = some w ∧
      ∀ ξ ρ N, val ξ ρ n w N = val ξ ρ n v N + val ξ ρ n (initialTerm n t c a b) N := by
  have hb1 : ¬ (b : ℚ) < 1 := by
    have : (2 : ℚ) ≤ b := by exact_mod_cast hb
    linarith
  have hs : singlePart n cmp S true 1 t a b g = some v := by
    unfold singlePart sharper
    simp [hg, h]
  have hpb : partBound n cmp S true 1 t a b g = some v := by
    unfold partBound
    split
    · exact absurd rfl (hadd _)
    · exact hs
  have h0 : partBound n cmp S false 1 t a b (.num 0) = some (.num 0) := by
    simp [partBound, singlePart]
  have h1 : approximate n cmp S t (.num a) b g [(.num 1, g, .num 0)] c =
      some (addE (addE (.num 0) (addE v (.num 0))) (initialTerm n t c a b)) := by
    unfold approximate
    simp only [ha, hb1, hp, Rat.den_natCast, not_false_eq_true, and_self, if_true, hg, if_false]
    simp [nonHomogeneous, termBound, hpb, h0, addO]
  refine ⟨_, h1, ?_⟩
  intro ξ ρ N
  unfold val
  simp only [eval_addE, ev_num]
  push_cast; ring

/-- `x(n) = a x(n/b) + n^k` -/
theorem approx_pow (ha : 0 < a) (hb : 2 ≤ b) {k : ℚ} (hk : 0 < k) {v : Expr} (h : powBound n cmp t a b k = some v) :
    ∃ w, approximate n cmp S t (.num a) b (.pow (.sym n) (.num k)) [(.num 1, .pow (.sym n) (.num k), .num 0)] c = some w ∧
      ∀ ξ ρ N, val ξ ρ n w N = val ξ ρ n v N + val ξ ρ n (initialTerm n t c a b) N := by
  refine approx_single ha hb (by simp) (by simp) (by simp [hasParameters]) ?_
  unfold sharperPoly
  rw [negE_n]
  simp [isCoeff, has, hk, h]

end

theorem idealCmp_less {ξ : ℝ → ℝ} {ρ : String → ℝ} {x y : Expr}
    (h : eval (realInterp ξ) ρ x < eval (realInterp ξ) ρ y) : idealCmp ξ ρ x y = .less := by
  unfold idealCmp; rw [if_pos h]

theorem idealCmp_equal {ξ : ℝ → ℝ} {ρ : String → ℝ} {x y : Expr}
    (h : eval (realInterp ξ) ρ x = eval (realInterp ξ) ρ y) : idealCmp ξ ρ x y = .equal := by
  unfold idealCmp; rw [if_neg (by rw [h]; exact lt_irrefl _), if_pos h]

theorem idealCmp_greater {ξ : ℝ → ℝ} {ρ : String → ℝ} {x y : Expr}
    (h : eval (realInterp ξ) ρ y < eval (realInterp ξ) ρ x) : idealCmp ξ ρ x y = .greater := by
  unfold idealCmp; rw [if_neg (not_lt.2 h.le), if_neg h.ne']

/-- No sums. -/
def noSums : Sums := ⟨fun _ _ _ _ => .num 0, fun _ _ _ => false⟩

/-- The hypotheses of `C38_upper_partial` are met by `x(n) = 2 x(n/2) + n`, whose upper bound is
`n log(n)/log(2) + 2^(log(n)/log(2)) x(1)`, for all initial conditions `x(1) ≥ 0`. -/
theorem C38_upper_nonvacuous (x1 : ℝ) (hx : 0 ≤ x1) : ∃ (ξ : ℝ → ℝ) (w : Expr),
    CmpOk ξ (fun _ => 0) "n" (idealCmp ξ fun _ => 0) ∧ SumsOk ξ (fun _ => 0) "n" 2 2 (fun _ => True) noSums ∧
    (∀ m : ℕ, 1 ≤ m → val ξ (fun _ => 0) "n" (.sym "n") m =
      ([(.num 1, .sym "n", .num 0)].map fun d : Expr × Expr × Expr => decVal ξ (fun _ => 0) "n" d m).sum) ∧
    (∀ d ∈ [((.num 1, .sym "n", .num 0) : Expr × Expr × Expr)], DecOk ξ (fun _ => 0) "n" (idealCmp ξ fun _ => 0) 2 2 .upper d) ∧
    approximate "n" (idealCmp ξ fun _ => 0) noSums .upper (.num 2) (2 : ℕ) (.sym "n") [(.num 1, .sym "n", .num 0)] 0 = some w ∧
    Satisfies ξ (2 : ℚ) 2 (val ξ (fun _ => 0) "n" (.sym "n")) ∧ (∀ i : ℕ, 1 ≤ i → i < 2 → 0 ≤ ξ i) ∧ ξ 1 = x1 := by
  obtain ⟨ξ, h1, h2⟩ := exists_solution 2 (le_refl 2) (fun m => (m : ℝ)) (fun _ => x1)
  have hv : val ξ (fun _ => 0) "n" (.sym "n") = fun m : ℕ => (m : ℝ) := by
    funext m; unfold val; rw [ev_n]
  have hx1 : ξ 1 = x1 := by simpa using h2 1 le_rfl (by norm_num)
  have hcmp : idealCmp ξ (fun _ => 0) (.num 2) (powE (.num 2) (.num 1)) = .equal :=
    idealCmp_equal (by rw [ev_pow]; simp [eval])
  have hsh : sharperPoly "n" (idealCmp ξ fun _ => 0) .upper 2 (2 : ℕ) (.sym "n") =
      some (mulE (powE (.sym "n") (.num 1)) (fracLog "n" (2 : ℕ))) := by
    simp [sharperPoly, isCoeff, powBound, powUpper, hcmp]
  obtain ⟨w, hw, _⟩ := approx_single (S := noSums) (c := 0) (by norm_num) (le_refl 2) (by simp) (by simp)
    (by simp [hasParameters]) hsh
  refine ⟨ξ, w, idealCmp_ok _ _ _, sums_none fun _ _ => rfl, ?_, ?_, hw, ?_, ?_, hx1⟩
  · intro m _
    simp [decVal, val, eval]
  · intro d hd
    simp only [List.mem_singleton] at hd
    subst hd
    refine Or.inl ⟨rfl, Or.inr ?_, Or.inl rfl⟩
    intro x hx'
    simp only [addends, List.mem_singleton] at hx'
    subst hx'
    refine ⟨by simp [powsOf, nPow], by simp [logsOf], by simp [powsOf, nPow], by rw [negE_n]; simp, by simp,
      Or.inr (Or.inl ⟨rfl, ?_⟩)⟩
    intro m _
    rw [hv]; positivity
  · rw [hv]
    push_cast
    exact h1
  · intro i hi1 hi2
    rw [h2 i hi1 hi2]; exact hx

/-- **C39** is false for `coeff < divisor^(k-1)`: the lower bound of `x(n) = 1/2 x(n/2) + n^2` with `x(1) = 0` is
greater than 256 at 15, where the solution is smaller than 252. -/
theorem C39_small_coefficient_refuted (S : Sums) : ∃ (ξ : ℝ → ℝ) (w : Expr),
    Satisfies ξ (1 / 2) 2 (fun m => (m : ℝ) ^ 2) ∧ ξ 1 = 0 ∧ CmpOk ξ (fun _ => 0) "n" (idealCmp ξ fun _ => 0) ∧
    approximate "n" (idealCmp ξ fun _ => 0) S .lower (.num (1 / 2)) (2 : ℕ) (.pow (.sym "n") (.num 2))
      [(.num 1, .pow (.sym "n") (.num 2), .num 0)] 0 = some w ∧
    ξ 15 < 252 ∧ 256 < val ξ (fun _ => 0) "n" w 15 := by
  obtain ⟨ξ, h1, h2⟩ := exists_solution (1 / 2) (le_refl 2) (fun m => (m : ℝ) ^ 2) (fun _ => 0)
  have hx1 : ξ 1 = 0 := by simpa using h2 1 le_rfl (by norm_num)
  have hcmp : idealCmp ξ (fun _ => 0) (.num (1 / 2)) (powE (.num 2) (.num (2 - 1))) = .less :=
    idealCmp_less (by rw [ev_pow]; simp only [ev_num]; norm_num)
  have hpb : powBound "n" (idealCmp ξ fun _ => 0) .lower (1 / 2) (2 : ℕ) 2 = some (lowA "n" (1 / 2) (2 : ℕ) 2) := by
    unfold powBound powLower
    have : ((2 : ℕ) : ℚ) = 2 := by norm_num
    simp only [this, hcmp]
    norm_num
  obtain ⟨w, hw, hval⟩ := approx_pow (S := S) (c := 0) (by norm_num) (le_refl 2) (by norm_num) hpb
  refine ⟨ξ, w, h1, hx1, idealCmp_ok _ _ _, hw, ?_, ?_⟩
  · have e3 := h1 3 (by norm_num)
    have e7 := h1 7 (by norm_num)
    have e15 := h1 15 (by norm_num)
    norm_num at e3 e7 e15
    rw [e15, e7, e3, hx1]
    norm_num
  · rw [hval]
    have hi : val ξ (fun _ => 0) "n" (initialTerm "n" .lower 0 (1 / 2) (2 : ℕ)) 15 = 0 := by
      unfold val initialTerm
      simp only
      rw [eval_mulE]
      have : eval (realInterp ξ) (update (fun _ => 0) "n" ((15 : ℕ) : ℝ)) (.fn .x [.num 1]) = 0 := by
        simp [eval, realInterp, realFn, hx1]
      norm_num
      right
      exact this
    rw [hi, add_zero]
    unfold val lowA
    simp only
    rw [muB_nat]
    have hl : ((1 / 2 : ℚ) : ℝ) ^ lg ((2 : ℕ) : ℝ) ((15 : ℕ) : ℝ) = 1 / 15 := by
      have h := b_rpow_lg (b := 2) (n := 15) (le_refl 2) (by norm_num)
      push_cast at h ⊢
      rw [one_div, Real.inv_rpow (by norm_num), h]; norm_num
    have hpf := ev_powFracLog ξ (fun _ => 0) "n" (N := 15) (a := 1 / 2) (b := 2) (by norm_num) (le_refl 2) (by norm_num)
    simp only [eval_mulE, eval_divE, eval_subE, ev_pow, ev_num, ev_n, hpf, hl]
    push_cast
    norm_num

/-- **C39** is false for `k < 1` and `coeff = divisor^k`: the lower bound of `x(n) = 2 x(n/4) + n^(1/2)` with zero initial
conditions is greater than 762.9 at 16383, where the solution is smaller than 762.7. -/
theorem C39_square_root_refuted (S : Sums) : ∃ (ξ : ℝ → ℝ) (w : Expr),
    Satisfies ξ 2 4 (fun m => (m : ℝ) ^ (1 / 2 : ℝ)) ∧ (∀ i : ℕ, 1 ≤ i → i < 4 → ξ i = 0) ∧
    CmpOk ξ (fun _ => 0) "n" (idealCmp ξ fun _ => 0) ∧
    approximate "n" (idealCmp ξ fun _ => 0) S .lower (.num 2) (4 : ℕ) (.pow (.sym "n") (.num (1 / 2)))
      [(.num 1, .pow (.sym "n") (.num (1 / 2)), .num 0)] 0 = some w ∧
    ξ 16383 < 762.7 ∧ 762.9 < val ξ (fun _ => 0) "n" w 16383 := by
  obtain ⟨ξ, h1, h2⟩ := exists_solution 2 (show 2 ≤ 4 by norm_num) (fun m => (m : ℝ) ^ (1 / 2 : ℝ)) (fun _ => 0)
  have hsq : (4 : ℝ) ^ (1 / 2 : ℝ) = 2 := by
    rw [← Real.sqrt_eq_rpow, show (4 : ℝ) = 2 ^ 2 by norm_num, Real.sqrt_sq (by norm_num)]
  have hcmp : idealCmp ξ (fun _ => 0) (.num 2) (powE (.num (4 : ℕ)) (.num (1 / 2))) = .equal :=
    idealCmp_equal (by rw [ev_pow]; simp only [ev_num]; push_cast; rw [hsq])
  have hpb : powBound "n" (idealCmp ξ fun _ => 0) .lower 2 (4 : ℕ) (1 / 2) = some (lowF "n" (4 : ℕ) (1 / 2)) := by
    unfold powBound powLower
    simp only [hcmp]
    norm_num
  obtain ⟨w, hw, hval⟩ := approx_pow (S := S) (c := 0) (by norm_num) (show 2 ≤ 4 by norm_num) (by norm_num) hpb
  refine ⟨ξ, w, h1, h2, idealCmp_ok _ _ _, hw, ?_, ?_⟩
  · have e1 := h1 15 (by norm_num)
    have e2 := h1 63 (by norm_num)
    have e3 := h1 255 (by norm_num)
    have e4 := h1 1023 (by norm_num)
    have e5 := h1 4095 (by norm_num)
    have e6 := h1 16383 (by norm_num)
    have x3 : ξ 3 = 0 := by simpa using h2 3 (by norm_num) (by norm_num)
    have key : ∀ m u : ℝ, 0 ≤ m → 0 ≤ u → m ≤ u ^ 2 → m ^ (1 / 2 : ℝ) ≤ u := by
      intro m u hm hu h
      rw [← Real.sqrt_eq_rpow]
      exact Real.sqrt_le_iff.2 ⟨hu, h⟩
    have k1 := key 15 3.874 (by norm_num) (by norm_num) (by norm_num)
    have k2 := key 63 7.938 (by norm_num) (by norm_num) (by norm_num)
    have k3 := key 255 15.97 (by norm_num) (by norm_num) (by norm_num)
    have k4 := key 1023 31.985 (by norm_num) (by norm_num) (by norm_num)
    have k5 := key 4095 63.993 (by norm_num) (by norm_num) (by norm_num)
    have k6 := key 16383 127.997 (by norm_num) (by norm_num) (by norm_num)
    norm_num at e1 e2 e3 e4 e5 e6 k1 k2 k3 k4 k5 k6
    rw [e6, e5, e4, e3, e2, e1, x3]
    norm_num
    linarith
  · rw [hval]
    have hi : val ξ (fun _ => 0) "n" (initialTerm "n" .lower 0 2 (4 : ℕ)) 16383 = 0 := by
      have h := initialTerm_sound (ξ := ξ) (ρ := fun _ => 0) (n := "n") (t := .lower) (a := 2) (b := 4) (c := 0) (N := 16383)
        (by norm_num) (by norm_num) (by norm_num) (by norm_num) (fun i h1 h3 => by rw [h2 i h1 h3])
      unfold val initialTerm
      simp only
      rw [eval_mulE]
      apply mul_eq_zero_of_right
      have hl : Nat.log 4 16383 = 6 := by
        rw [Nat.log_eq_iff (by norm_num)]; norm_num
      have hf := floor_lg (b := 4) (N := 16383) (by norm_num) (by norm_num)
      rw [hl] at hf
      unfold lg at hf
      push_cast at hf
      have x3 : ξ 3 = 0 := by simpa using h2 3 (by norm_num) (by norm_num)
      norm_num
      simp only [eval, realInterp, realFn, List.map_cons, List.map_nil, update_self]
      push_cast
      rw [hf]
      norm_num
      exact x3
    rw [hi, add_zero]
    unfold val lowF
    rw [muB_nat, cB_nat]
    simp only [eval_addE, eval_mulE, eval_subE, ev_pow, ev_num, ev_n, ev_fracLog]
    push_cast
    rw [Real.one_rpow]
    have hlog : (7 : ℝ) - 1 / 16383 ≤ lg 4 16383 := by
      unfold lg
      have h4 : (1 : ℝ) ≤ Real.log 4 := by
        rw [show (4 : ℝ) = 2 ^ 2 by norm_num, Real.log_pow]
        have := Real.one_sub_inv_le_log_of_pos (show (0 : ℝ) < 2 by norm_num)
        norm_num at this
        push_cast; linarith
      rw [le_div_iff₀ (by linarith)]
      have h5 : Real.log 16383 = 7 * Real.log 4 + Real.log (16383 / 16384) := by
        rw [Real.log_div (by norm_num) (by norm_num), show (16384 : ℝ) = 4 ^ 7 by norm_num, Real.log_pow]
        push_cast; ring
      have h6 := Real.one_sub_inv_le_log_of_pos (show (0 : ℝ) < 16383 / 16384 by norm_num)
      norm_num at h6
      rw [h5]
      nlinarith
    have hr : (127.996 : ℝ) ≤ (16383 : ℝ) ^ (1 / 2 : ℝ) := by
      rw [← Real.sqrt_eq_rpow]
      apply Real.le_sqrt_of_sq_le
      norm_num
    nlinarith

/-- **C39** is false for the term `-n`: the lower bound of `x(n) = x(n/2) - n` is positive at 2. -/
theorem C39_minus_n_refuted (S : Sums) : ∃ (ξ : ℝ → ℝ) (w : Expr),
    Satisfies ξ 1 2 (fun m => -(m : ℝ)) ∧ ξ 1 = 0 ∧ CmpOk ξ (fun _ => 0) "n" (idealCmp ξ fun _ => 0) ∧
    approximate "n" (idealCmp ξ fun _ => 0) S .lower (.num 1) (2 : ℕ) (.mul [.num (-1), .sym "n"])
      [(.num 1, .mul [.num (-1), .sym "n"], .num 0)] 0 = some w ∧
    ξ 2 = -2 ∧ val ξ (fun _ => 0) "n" w 2 = 4 := by
  obtain ⟨ξ, h1, h2⟩ := exists_solution 1 (le_refl 2) (fun m => -(m : ℝ)) (fun _ => 0)
  have hx1 : ξ 1 = 0 := by simpa using h2 1 le_rfl (by norm_num)
  have hcmp : idealCmp ξ (fun _ => 0) (.num 1) (powE (.num 2) (.num 1)) = .less :=
    idealCmp_less (by rw [ev_pow]; simp only [ev_num]; norm_num)
  have hsh : sharperPoly "n" (idealCmp ξ fun _ => 0) .lower 1 (2 : ℕ) (.mul [.num (-1), .sym "n"]) =
      some (divE (mulE (powE (.sym "n") (.num 1)) (powE (.num 2) (.num 1))) (subE (powE (.num 2) (.num 1)) (.num 1))) := by
    unfold sharperPoly
    rw [negE_n]
    simp [isCoeff, powBound, powUpper, Ty.swap, hcmp]
  obtain ⟨w, hw, hval⟩ := approx_single (S := S) (c := 0) (by norm_num) (le_refl 2) (by simp) (by simp)
    (by simp [hasParameters]) hsh
  refine ⟨ξ, w, h1, hx1, idealCmp_ok _ _ _, hw, ?_, ?_⟩
  · have e2 := h1 2 le_rfl
    norm_num at e2
    rw [e2, hx1]; norm_num
  · rw [hval]
    have hi : val ξ (fun _ => 0) "n" (initialTerm "n" .lower 0 1 (2 : ℕ)) 2 = 0 := by
      unfold val initialTerm
      simp only
      rw [eval_mulE]
      have : eval (realInterp ξ) (update (fun _ => 0) "n" ((2 : ℕ) : ℝ)) (.fn .x [.num 1]) = 0 := by
        simp [eval, realInterp, realFn, hx1]
      norm_num
      right
      exact this
    rw [hi]
    unfold val
    simp only [eval_divE, eval_mulE, eval_subE, ev_pow, ev_num, ev_n]
    push_cast
    norm_num

/-- **C38** is false for a term `n 2^n`: whatever the closed forms of the sums, the upper bound of
`x(n) = x(n/2) + n 2^n` with `x(1) = 0` is 18 at 4, where the solution is 72: the exponential is forgotten. -/
theorem C38_exponential_refuted (S : Sums) (hS : ∀ ξ, ClosedForm ξ (fun _ => 0) "n" 1 2 S .upper (.sym "n"))
    (hM : S.monotone 2 (.sym "n") true = true) : ∃ (ξ : ℝ → ℝ) (w : Expr),
    Satisfies ξ 1 2 (fun m => (m : ℝ) * 2 ^ m) ∧ ξ 1 = 0 ∧ CmpOk ξ (fun _ => 0) "n" (idealCmp ξ fun _ => 0) ∧
    approximate "n" (idealCmp ξ fun _ => 0) S .upper (.num 1) (2 : ℕ) (.mul [.sym "n", .pow (.num 2) (.sym "n")])
      [(.num 2, .sym "n", .num 0)] 0 = some w ∧
    ξ 4 = 72 ∧ val ξ (fun _ => 0) "n" w 4 = 18 := by
  obtain ⟨ξ, h1, h2⟩ := exists_solution 1 (le_refl 2) (fun m => (m : ℝ) * 2 ^ m) (fun _ => 0)
  have hx1 : ξ 1 = 0 := by simpa using h2 1 le_rfl (by norm_num)
  have hcmp : idealCmp ξ (fun _ => 0) (.num 1) (powE (.num 2) (.num 1)) = .less :=
    idealCmp_less (by rw [ev_pow]; simp only [ev_num]; norm_num)
  obtain ⟨v, hv⟩ : ∃ v, v = divE (mulE (powE (.sym "n") (.num 1)) (powE (.num 2) (.num 1)))
      (subE (powE (.num 2) (.num 1)) (.num 1)) := ⟨_, rfl⟩
  have hsh : sharperPoly "n" (idealCmp ξ fun _ => 0) .upper 1 (2 : ℕ) (.sym "n") = some v := by
    rw [hv]
    simp [sharperPoly, isCoeff, powBound, powUpper, hcmp]
  have hpb : partBound "n" (idealCmp ξ fun _ => 0) S true 2 .upper 1 (2 : ℕ) (.sym "n") =
      some (addE v (sumPart "n" S .upper 1 (2 : ℕ) (.sym "n"))) := by
    simp only [partBound, singlePart, sharper, if_true, hsh, hM]
    simp
  have hexp : sharperExp "n" (idealCmp ξ fun _ => 0) .upper 1 (2 : ℕ) 2 (.sym "n") = none := by
    simp [sharperExp, isCoeff]
  refine ⟨ξ, addE (addE (.num 0) (addE (addE v (sumPart "n" S .upper 1 (2 : ℕ) (.sym "n"))) (.num 0)))
    (initialTerm "n" .upper 0 1 (2 : ℕ)), h1, hx1, idealCmp_ok _ _ _, ?_, ?_, ?_⟩
  · unfold approximate
    have hp : hasParameters "n" (.mul [.sym "n", .pow (.num 2) (.sym "n")]) = false := by simp [hasParameters]
    simp only [hp, Rat.den_natCast, reduceCtorEq, if_false]
    norm_num
    simp only [nonHomogeneous, List.foldr_cons, List.foldr_nil, termBound]
    have hpb' := hpb
    have hexp' := hexp
    push_cast at hpb' hexp'
    norm_num [hpb', hexp', addO]
    simp
  · have e2 := h1 2 le_rfl
    have e4 := h1 4 (by norm_num)
    norm_num at e2 e4
    rw [e4, e2, hx1]; norm_num
  · have hi : val ξ (fun _ => 0) "n" (initialTerm "n" .upper 0 1 (2 : ℕ)) 4 = 0 := by
      unfold val initialTerm
      simp only
      rw [eval_mulE]
      have : eval (realInterp ξ) (update (fun _ => 0) "n" ((4 : ℕ) : ℝ)) (.fn .x [.num 1]) = 0 := by
        simp [eval, realInterp, realFn, hx1]
      norm_num
      right
      exact this
    have hs := val_sumPart_upper (le_refl 2) (hS ξ) 2
    have hvn : val ξ (fun _ => 0) "n" (.sym "n") = fun m : ℕ => (m : ℝ) := by
      funext m; unfold val; rw [ev_n]
    rw [hvn] at hs
    have hs4 : val ξ (fun _ => 0) "n" (sumPart "n" S .upper 1 (2 : ℕ) (.sym "n")) 4 = 10 := by
      rw [show (4 : ℕ) = 2 ^ 2 by norm_num, hs]
      unfold sumSpec
      rw [show Icc 2 (2 + 1) = {2, 3} by decide]
      simp
      norm_num
    unfold val at hi hs4 ⊢
    rw [eval_addE, eval_addE, eval_addE, eval_addE, hi, hs4, hv]
    simp only [eval_divE, eval_mulE, eval_subE, ev_pow, ev_num, ev_n]
    push_cast
    norm_num

/-- The hypotheses of `C38_exponential_refuted` are met by the closed form `2 2^n - n - 3`. -/
theorem C38_exponential_nonvacuous : ∃ S : Sums, (∀ ξ, ClosedForm ξ (fun _ => 0) "n" 1 2 S .upper (.sym "n")) ∧
    S.monotone 2 (.sym "n") true = true := by
  refine ⟨⟨fun _ _ _ _ => .add [.mul [.num 2, .pow (.num 2) (.sym "n")], .mul [.num (-1), .sym "n"], .num (-3)],
    fun _ _ _ => true⟩, ?_, rfl⟩
  intro ξ
  refine ⟨by simp [hasSumOrProd], ?_⟩
  intro q hq0
  have hq := hq0 rfl
  clear hq0
  have hv : val ξ (fun _ => 0) "n" (.add [.mul [.num 2, .pow (.num 2) (.sym "n")], .mul [.num (-1), .sym "n"], .num (-3)]) q =
      2 * 2 ^ q - q - 3 := by
    simp [val, eval, realInterp]; ring
  have hvn : val ξ (fun _ => 0) "n" (.sym "n") = fun m : ℕ => (m : ℝ) := by
    funext m; unfold val; rw [ev_n]
  rw [hv, hvn]
  unfold sumSpec
  simp only
  push_cast
  simp only [one_pow, one_mul]
  clear hv hvn
  induction q, hq using Nat.le_induction with
  | base => simp; norm_num
  | succ q hq ih =>
    rw [sum_Icc_succ_top (by omega), ← ih]
    rw [Nat.cast_sub (Nat.one_le_two_pow)]
    push_cast
    ring

end Purrs.Bounds
