import Verif.Props.VerifyBound
import Verif.Props.BoundsRefuted

/-!
# C160: concrete candidates, and where the inductive step is not enough
-/

set_option linter.unusedSectionVars false

namespace Purrs.Verify

open Purrs Purrs.OrderRed Purrs.WeightedAvg
open Function (update update_self)

open Classical in
/-- An evaluation of differences that recognises those that are 0. -/
noncomputable def exCanon (e : Expr) : Expr :=
  if ∀ ξ ρ (N : ℕ), 1 ≤ N → realAt ξ ρ "n" e N = 0 then .num 0 else e

theorem exCanon_keeps (ρ : String → ℝ) : KeepsAt ρ "n" exCanon := by
  intro ξ e N hN
  unfold exCanon
  split_ifs with h
  · rw [h ξ ρ N hN]; simp [realAt, eval]
  · rfl

theorem exCanon_zero {e : Expr} (h : ∀ ξ ρ (N : ℕ), 1 ≤ N → realAt ξ ρ "n" e N = 0) : exCanon e = .num 0 := if_pos h

/-- `x(n/2)`. -/
def halfX : Expr := .fn .x [.mul [.num (1 / 2), .sym "n"]]

theorem nDiv_two : nDiv "n" 2 = .mul [.num (1 / 2), .sym "n"] := by simp [nDiv, mulE]

theorem halfX_value (X : ℝ → ℝ) (ρ : String → ℝ) (t : ℝ) : realAt X ρ "n" halfX t = X (t / 2) := by
  have : ((2 : ℝ)⁻¹ * t) = t / 2 := by ring
  simp [realAt, eval, halfX, realInterp, realFn, this]

/-- `x(n) = x(n/2) + n`. -/
def rhsUp : Expr := .add [halfX, .sym "n"]

/-- `x(n) = x(n/2) - n`. -/
def rhsDown : Expr := .add [halfX, .mul [.num (-1), .sym "n"]]

theorem rhsUp_value (X : ℝ → ℝ) (ρ : String → ℝ) (N : ℕ) : realAt X ρ "n" rhsUp N = 1 * X ((N : ℝ) / (2 : ℕ)) + N := by
  have := halfX_value X ρ N
  unfold realAt at this
  simp [realAt, rhsUp, eval, this]

theorem rhsDown_value (X : ℝ → ℝ) (ρ : String → ℝ) (N : ℕ) : realAt X ρ "n" rhsDown N = 1 * X ((N : ℝ) / (2 : ℕ)) + -N := by
  have := halfX_value X ρ N
  unfold realAt at this
  simp [realAt, rhsDown, eval, this]

/-- The candidate `2 n`. -/
def dblN : Expr := .mul [.num 2, .sym "n"]
/-- The candidate `2 n - 10`. -/
def dblNLow : Expr := .add [.mul [.num 2, .sym "n"], .num (-10)]
/-- The candidate `10 - 2 n`. -/
def tenMinus : Expr := .add [.num 10, .mul [.num (-2), .sym "n"]]

theorem dblN_value (ξ : ℝ → ℝ) (ρ : String → ℝ) (t : ℝ) : realAt ξ ρ "n" dblN t = 2 * t := by simp [realAt, dblN, eval]
theorem dblNLow_value (ξ : ℝ → ℝ) (ρ : String → ℝ) (t : ℝ) : realAt ξ ρ "n" dblNLow t = 2 * t - 10 := by
  simp [realAt, dblNLow, eval]; ring
theorem tenMinus_value (ξ : ℝ → ℝ) (ρ : String → ℝ) (t : ℝ) : realAt ξ ρ "n" tenMinus t = 10 - 2 * t := by
  simp [realAt, tenMinus, eval]; ring

theorem up_accepts : boundRest id exCanon "n" true 1 ((2 : ℕ) : ℚ) rhsUp dblN = .correct := by
  have e : diffB id exCanon "n" true ((2 : ℕ) : ℚ) rhsUp dblN = .num 0 := by
    refine exCanon_zero fun ξ ρ N _ => ?_
    simp [nDiv_two, dblN, rhsUp, halfX, substitute, realAt, eval_subE, eval_addE, eval_mulE, eval]
    try ring
  unfold boundRest
  rw [e]
  simp [decideDiff, wrongSign, dblN, substitute, mulE]

theorem low_accepts : boundRest id exCanon "n" false 1 ((2 : ℕ) : ℚ) rhsUp dblNLow = .correct := by
  have e : diffB id exCanon "n" false ((2 : ℕ) : ℚ) rhsUp dblNLow = .num 0 := by
    refine exCanon_zero fun ξ ρ N _ => ?_
    simp [nDiv_two, dblNLow, rhsUp, halfX, substitute, realAt, eval_subE, eval_addE, eval_mulE, eval]
    try ring
  unfold boundRest
  rw [e]
  simp [decideDiff, wrongSign, dblNLow, substitute, mulE, addE]
  try norm_num

theorem down_accepts : boundRest id exCanon "n" true 1 ((2 : ℕ) : ℚ) rhsDown tenMinus = .correct := by
  have e : diffB id exCanon "n" true ((2 : ℕ) : ℚ) rhsDown tenMinus = .num 0 := by
    refine exCanon_zero fun ξ ρ N _ => ?_
    simp [nDiv_two, tenMinus, rhsDown, halfX, substitute, realAt, eval_subE, eval_addE, eval_mulE, eval]
    try ring
  unfold boundRest
  rw [e]
  simp [decideDiff, wrongSign, tenMinus, substitute, mulE, addE]
  try norm_num

/-- The hypotheses of `C160_upper_partial` are met by the candidate `2 n` for `x(n) = x(n/2) + n`, with a solution with any value at 1. -/
theorem C160_nonvacuous (ρ : String → ℝ) (x1 : ℝ) : ∃ ξ : ℝ → ℝ, Bounds.Satisfies ξ 1 2 (fun m => (m : ℝ)) ∧ ξ 1 = x1 ∧
    boundRest id exCanon "n" true 1 ((2 : ℕ) : ℚ) rhsUp dblN = .correct ∧ KeepsAt ρ "n" exCanon ∧
    ∀ N : ℕ, 1 ≤ N → ξ N ≤ (x1 - 2) + 2 * (N : ℝ) := by
  obtain ⟨ξ, h1, h2⟩ := Bounds.exists_solution 1 (le_refl 2) (fun m => (m : ℝ)) (fun _ => x1)
  have hx1 : ξ 1 = x1 := by simpa using h2 1 le_rfl (by norm_num)
  refine ⟨ξ, h1, hx1, up_accepts, exCanon_keeps ρ, fun N hN => ?_⟩
  have := C160_upper_partial (ρ := ρ) (H := fun _ => x1 - 2) up_accepts (fun _ _ _ _ => rfl) (exCanon_keeps ρ)
    (by simp [dblN, idxNe]) (by simp [rhsUp, halfX, onlyX, nDiv, mulE]) (fun X M => rhsUp_value X ρ M) (by norm_num) le_rfl (by norm_num)
    (fun s t _ h => by rw [dblN_value, dblN_value]; linarith) h1 (fun m _ => by simp)
    (fun i hi hi2 => by
      obtain rfl : i = 1 := by omega
      rw [dblN_value]; push_cast; rw [hx1]; linarith) N hN
  rwa [dblN_value] at this

/-- A solution of `x(n) = x(n/2) + d n` at the indices 1 and 3. -/
theorem values_at_three (d x1 : ℝ) : ∃ ξ : ℝ → ℝ, Bounds.Satisfies ξ 1 2 (fun m => d * (m : ℝ)) ∧ ξ 1 = x1 ∧ ξ 3 = x1 + 3 * d := by
  obtain ⟨ξ, h1, h2⟩ := Bounds.exists_solution 1 (le_refl 2) (fun m => d * (m : ℝ)) (fun _ => x1)
  have hx1 : ξ 1 = x1 := by simpa using h2 1 le_rfl (by norm_num)
  have h3 := h1 3 (by norm_num)
  norm_num at h3
  exact ⟨ξ, h1, hx1, by rw [h3, hx1]; ring⟩

/-- **C160**, refuted for increasing lower bounds: for `x(n) = x(n/2) + n` the verification accepts `2 n - 10` as a lower bound with the index 1, and it
is one at the initial index; but with `x(1) = -8`, `x(3) = -5` is less than `2·3 - 10`. -/
theorem C160_lower_refuted : boundRest id exCanon "n" false 1 ((2 : ℕ) : ℚ) rhsUp dblNLow = .correct ∧
    ∃ ξ : ℝ → ℝ, Bounds.Satisfies ξ 1 2 (fun m => 1 * (m : ℝ)) ∧ realAt 0 (fun _ => 0) "n" dblNLow (1 : ℕ) ≤ ξ 1 ∧
      ξ 3 < realAt 0 (fun _ => 0) "n" dblNLow (3 : ℕ) := by
  obtain ⟨ξ, h1, h2, h3⟩ := values_at_three 1 (-8)
  refine ⟨low_accepts, ξ, h1, ?_, ?_⟩
  · rw [dblNLow_value, h2]; norm_num
  · rw [dblNLow_value, h3]; norm_num

/-- **C160**, refuted for decreasing upper bounds: for `x(n) = x(n/2) - n` the verification accepts `10 - 2 n` as an upper bound with the index 1, and it
is one at the initial index; but with `x(1) = 8`, `x(3) = 5` is greater than `10 - 2·3`. -/
theorem C160_upper_refuted : boundRest id exCanon "n" true 1 ((2 : ℕ) : ℚ) rhsDown tenMinus = .correct ∧
    ∃ ξ : ℝ → ℝ, Bounds.Satisfies ξ 1 2 (fun m => -1 * (m : ℝ)) ∧ ξ 1 ≤ realAt 0 (fun _ => 0) "n" tenMinus (1 : ℕ) ∧
      realAt 0 (fun _ => 0) "n" tenMinus (3 : ℕ) < ξ 3 := by
  obtain ⟨ξ, h1, h2, h3⟩ := values_at_three (-1) 8
  refine ⟨down_accepts, ξ, h1, ?_, ?_⟩
  · rw [tenMinus_value, h2]; norm_num
  · rw [tenMinus_value, h3]; norm_num

/-- The steps 3 and 4 are run for divisors that are not integers: the term with the initial condition `x(Sc(n,3/2))` of the bounds is then not taken for
one with initial conditions only, and is the candidate, without the other terms of the bound. -/
theorem C160_reached (O : Oracle) (hO : O.simpSum = id) (simp canon : Expr → Expr) (upper : Bool) (c : ℕ) (rhs : Expr) :
    verifyBound O "n" (boundRest simp canon "n" upper c (3 / 2) rhs) (.add [.fn .x [.fn .sc [.sym "n", .num (3 / 2)]], .mul [.num 3, .sym "n"]]) =
      boundRest simp canon "n" upper c (3 / 2) rhs (.fn .x [.fn .sc [.sym "n", .num (3 / 2)]]) := by
  unfold verifyBound
  rw [hO]
  simp [partialBound, hasOnlyIC, isICArg, isPosInt, addE]
  have h : ¬ (3 / 2 : ℚ).den = 1 := by
    intro h
    have := ratCast_of_den_one (K := ℝ) h
    have h2 : (3 / 2 : ℚ).num = 3 := by norm_num
    rw [h2] at this
    push_cast at this
    norm_num at this
  rw [if_neg h, if_neg h]

/-- With the steps 3 and 4, an accepted bound satisfies the inequality of the induction up to its terms with initial conditions only. -/
theorem C160_verify {O : Oracle} {simp canon : Expr → Expr} {n : String} {ρ : String → ℝ} {c : ℕ} {b : ℚ} {rhs bound : Expr}
    (h : verifyBound O n (boundRest simp canon n true c b rhs) bound = .correct) (hs : KeepsAt ρ n simp) (hc : KeepsAt ρ n canon)
    (hi : idxNe n (partialBound n (O.simpSum bound)) = true) (hb : onlyX (nDiv n b) rhs = true) (ξ : ℝ → ℝ) :
    partialBound n (O.simpSum bound) = .num 0 ∨ ∀ N : ℕ, 1 ≤ N → c ≤ N →
      realAt (realAt ξ ρ n (partialBound n (O.simpSum bound))) ρ n rhs N ≤ realAt ξ ρ n (partialBound n (O.simpSum bound)) N := by
  unfold verifyBound at h
  dsimp only at h
  split_ifs at h with h0
  · exact Or.inl h0
  · exact Or.inr fun N h1 hN => by simpa using C160_step h hs hc hi hb ξ _ N rfl h1 hN

end Purrs.Verify
