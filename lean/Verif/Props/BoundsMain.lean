import Verif.Props.Bounds
import Verif.Props.Expr

/-!
# C38, C39: main theorems and counterexamples
-/

set_option linter.unusedSectionVars false

namespace Purrs.Bounds

open Purrs Purrs.WeightedAvg Finset
open Function (update update_of_ne update_self)

section
variable {ξ : ℝ → ℝ} {ρ : String → ℝ} {n : String} {cmp : Expr → Expr → Cmp} {a : ℚ} {b : ℕ} {P : ℕ → Prop} {t : Ty}
  {S : Sums} {g w : Expr} {ds : List (Expr × Expr × Expr)} {c : ℕ}

theorem approximate_sound (hcmp : CmpOk ξ ρ n cmp) (hb : 2 ≤ b) (hS : SumsOk ξ ρ n a b P S)
    (hdec : ∀ m : ℕ, 1 ≤ m → val ξ ρ n g m = (ds.map fun d => decVal ξ ρ n d m).sum)
    (hd : ∀ d ∈ ds, DecOk ξ ρ n cmp a b t d) (hc : c ≤ 1)
    (h : approximate n cmp S t (.num a) b g ds c = some w)
    (hsat : Satisfies ξ a b (val ξ ρ n g)) (hpos : ∀ i : ℕ, 1 ≤ i → i < b → 0 ≤ ξ i) :
    ∀ N : ℕ, b ≤ N → P N → t.bounds (val ξ ρ n w N) (ξ N) := by
  unfold approximate at h
  simp only at h
  split_ifs at h with h1 h2
  · obtain ⟨ha, _⟩ := h1
    simp only [Option.map_some, Option.some.injEq] at h
    subst h
    intro N hN hP
    have h3 := initialTerm_sound (ξ := ξ) (ρ := ρ) (n := n) (t := t) ha hb hc (show 1 ≤ N by omega) hpos
    have h4 := satisfies_unroll hb hsat N (by omega)
    have h5 : unroll a b (val ξ ρ n g) N = 0 := by
      rw [h2]; unfold unroll; simp [val_num]
    rw [h4, h5, add_zero]
    have : val ξ ρ n (addE (.num 0) (initialTerm n t c a b)) N = val ξ ρ n (initialTerm n t c a b) N := by
      unfold val; rw [eval_addE, ev_num]; simp
    rw [this]
    exact h3
  · obtain ⟨ha, _⟩ := h1
    rw [Option.map_eq_some_iff] at h
    obtain ⟨s, hs, rfl⟩ := h
    intro N hN hP
    have h3 := initialTerm_sound (ξ := ξ) (ρ := ρ) (n := n) (t := t) ha hb hc (show 1 ≤ N by omega) hpos
    have h4 := satisfies_unroll hb hsat N (by omega)
    have h5 := Piece.congr hb (fun m hm => (hdec m hm).symm) (nonHomogeneous_sound hcmp ha hb hS ds hd hs) N hN hP
    rw [h4]
    have e : val ξ ρ n (addE s (initialTerm n t c a b)) N = val ξ ρ n s N + val ξ ρ n (initialTerm n t c a b) N := by
      unfold val; rw [eval_addE]
    rw [e]
    cases t <;> simp only [Ty.bounds] at * <;> linarith

/-- **C38** (partial: `TermOk` and `DecOk` exclude the terms for which the claim is false, the bounds with the `gamma`
function, and, where sums are needed, the points not in `P`).  If the upper bound is computed, then at every `n` from
the divisor on it is not smaller than the value of any function that satisfies the equation and has non-negative
initial conditions. -/
theorem C38_upper_partial (hcmp : CmpOk ξ ρ n cmp) (hb : 2 ≤ b) (hS : SumsOk ξ ρ n a b P S)
    (hdec : ∀ m : ℕ, 1 ≤ m → val ξ ρ n g m = (ds.map fun d => decVal ξ ρ n d m).sum)
    (hd : ∀ d ∈ ds, DecOk ξ ρ n cmp a b .upper d) (hc : c ≤ 1)
    (h : approximate n cmp S .upper (.num a) b g ds c = some w)
    (hsat : Satisfies ξ a b (val ξ ρ n g)) (hpos : ∀ i : ℕ, 1 ≤ i → i < b → 0 ≤ ξ i) :
    ∀ N : ℕ, b ≤ N → P N → ξ N ≤ val ξ ρ n w N :=
  approximate_sound hcmp hb hS hdec hd hc h hsat hpos

/-- **C39** (partial in the same way as `C38_upper_partial`): the lower bound. -/
theorem C39_lower_partial (hcmp : CmpOk ξ ρ n cmp) (hb : 2 ≤ b) (hS : SumsOk ξ ρ n a b P S)
    (hdec : ∀ m : ℕ, 1 ≤ m → val ξ ρ n g m = (ds.map fun d => decVal ξ ρ n d m).sum)
    (hd : ∀ d ∈ ds, DecOk ξ ρ n cmp a b .lower d) (hc : c ≤ 1)
    (h : approximate n cmp S .lower (.num a) b g ds c = some w)
    (hsat : Satisfies ξ a b (val ξ ρ n g)) (hpos : ∀ i : ℕ, 1 ≤ i → i < b → 0 ≤ ξ i) :
    ∀ N : ℕ, b ≤ N → P N → val ξ ρ n w N ≤ ξ N :=
  approximate_sound hcmp hb hS hdec hd hc h hsat hpos

end

/-! ## The sums -/

/-- The values at the integers of the sums that the solver looks for:
`G(q) = Σ_{k=1}^q a^(q-k) s(b^k)` and `H(q) = Σ_{k=2}^q a^(q-k) s(b^k - 1)`. -/
noncomputable def sumSpec (a : ℝ) (b : ℕ) (s : ℕ → ℝ) (q : ℕ) : Ty → ℝ
  | .lower => ∑ k ∈ Icc 1 q, a ^ (q - k) * s (b ^ k)
  | .upper => ∑ k ∈ Icc 2 q, a ^ (q - k) * s (b ^ k - 1)

theorem unroll_pow (a : ℝ) {b : ℕ} (hb : 2 ≤ b) (s : ℕ → ℝ) (q : ℕ) :
    unroll a b s (b ^ q) = ∑ k ∈ Icc 1 q, a ^ (q - k) * s (b ^ k) := by
  unfold unroll
  rw [Nat.log_pow (by omega)]
  induction q with
  | zero => simp
  | succ q ih =>
    rw [sum_range_succ', sum_Icc_succ_top (by omega)]
    have h1 : ∀ j ∈ range q, a ^ (j + 1) * s (b ^ (q + 1) / b ^ (j + 1)) = a * (a ^ j * s (b ^ q / b ^ j)) := by
      intro j hj
      have : b ^ (q + 1) / b ^ (j + 1) = b ^ q / b ^ j := by
        rw [pow_succ, pow_succ, Nat.mul_div_mul_right _ _ (by omega)]
      rw [this, pow_succ]; ring
    rw [sum_congr rfl h1, ← mul_sum, ih, mul_sum]
    congr 1
    · apply sum_congr rfl
      intro k hk
      have := (mem_Icc.1 hk).2
      rw [show q + 1 - k = q - k + 1 by omega, pow_succ]; ring
    · simp

section
variable {a : ℝ} {b : ℕ} {s : ℕ → ℝ}

/-- `G(q-1) ≤ G(q)` for a non-negative, non-decreasing function. -/
theorem lower_sum (ha : 0 < a) (hb : 2 ≤ b) (h0 : ∀ m, 1 ≤ m → 0 ≤ s m) (hm : ∀ i j, 1 ≤ i → i ≤ j → s i ≤ s j) (q : ℕ) :
    sumSpec a b s q .lower ≤ unroll a b s (b ^ (q + 1)) := by
  rw [unroll_pow a hb]
  unfold sumSpec
  have hs : ∑ k ∈ Icc 1 (q + 1), a ^ (q + 1 - k) * s (b ^ k) =
      a ^ q * s b + ∑ k ∈ Icc 1 q, a ^ (q - k) * s (b ^ (k + 1)) := by
    rw [← add_sum_Ioc_eq_sum_Icc (show 1 ≤ q + 1 by omega)]
    congr 1
    · simp
    · have : Ioc 1 (q + 1) = (Icc 1 q).map (addRightEmbedding 1) := by
        ext x; simp only [mem_Ioc, mem_map, mem_Icc, addRightEmbedding_apply]
        constructor
        · rintro ⟨h1, h2⟩; exact ⟨x - 1, ⟨by omega, by omega⟩, by omega⟩
        · rintro ⟨y, ⟨h1, h2⟩, rfl⟩; omega
      rw [this, sum_map]
      apply sum_congr rfl
      intro k hk
      simp only [addRightEmbedding_apply]
      rw [show q + 1 - (k + 1) = q - k by omega]
  rw [hs]
  have h1 : 0 ≤ a ^ q * s b := mul_nonneg (by positivity) (h0 b (by omega))
  have h2 : ∑ k ∈ Icc 1 q, a ^ (q - k) * s (b ^ k) ≤ ∑ k ∈ Icc 1 q, a ^ (q - k) * s (b ^ (k + 1)) := by
    apply sum_le_sum
    intro k _
    have : s (b ^ k) ≤ s (b ^ (k + 1)) :=
      hm _ _ (Nat.one_le_pow _ _ (by omega)) (Nat.pow_le_pow_right (by omega) (by omega))
    gcongr
  linarith

/-- `G(q) ≤ H(q+1)`. -/
theorem upper_sum (ha : 0 < a) (hb : 2 ≤ b) (hm : ∀ i j, 1 ≤ i → i ≤ j → s i ≤ s j) (q : ℕ) :
    unroll a b s (b ^ q) ≤ sumSpec a b s (q + 1) .upper := by
  rw [unroll_pow a hb]
  unfold sumSpec
  have : Icc 2 (q + 1) = (Icc 1 q).map (addRightEmbedding 1) := by
    ext x; simp only [mem_map, mem_Icc, addRightEmbedding_apply]
    constructor
    · rintro ⟨h1, h2⟩; exact ⟨x - 1, ⟨by omega, by omega⟩, by omega⟩
    · rintro ⟨y, ⟨h1, h2⟩, rfl⟩; omega
  rw [this, sum_map]
  apply sum_le_sum
  intro k hk
  simp only [addRightEmbedding_apply]
  rw [show q + 1 - (k + 1) = q - k by omega]
  have h1 : 1 ≤ b ^ k := Nat.one_le_pow _ _ (by omega)
  have : s (b ^ k) ≤ s (b ^ (k + 1) - 1) := by
    apply hm _ _ h1
    rw [pow_succ]
    have : b ^ k * 2 ≤ b ^ k * b := Nat.mul_le_mul_left _ hb
    omega
  gcongr

end

/-- The answer of the summation procedures is a closed form, right at the integers. -/
def ClosedForm (ξ : ℝ → ℝ) (ρ : String → ℝ) (n : String) (a : ℚ) (b : ℕ) (S : Sums) (t : Ty) (e : Expr) : Prop :=
  hasSumOrProd (S.sum t e a b) = false ∧
    ∀ q : ℕ, (t = .upper → 1 ≤ q) → val ξ ρ n (S.sum t e a b) q = sumSpec a b (val ξ ρ n e) q t

/-- The test of monotonicity is right. -/
def MonotoneOk (ξ : ℝ → ℝ) (ρ : String → ℝ) (n : String) (S : Sums) : Prop :=
  ∀ e poly, S.monotone 1 e poly = true →
    (∀ m : ℕ, 1 ≤ m → 0 ≤ val ξ ρ n e m) ∧ ∀ i j : ℕ, 1 ≤ i → i ≤ j → val ξ ρ n e i ≤ val ξ ρ n e j

section
variable {ξ : ℝ → ℝ} {ρ : String → ℝ} {n : String} {a : ℚ} {b : ℕ} {S : Sums}

theorem lg_pow (hb : 2 ≤ b) (q : ℕ) : lg b ((b ^ q : ℕ) : ℝ) = q := by
  unfold lg
  push_cast
  rw [Real.log_pow, mul_div_assoc, div_self (logb_pos hb).ne', mul_one]

theorem val_sumPart_lower (hb : 2 ≤ b) {e : Expr} (h : ClosedForm ξ ρ n a b S .lower e) (q : ℕ) :
    val ξ ρ n (sumPart n S .lower a b e) (b ^ (q + 1)) = sumSpec a b (val ξ ρ n e) q .lower := by
  rw [← h.2 q (by simp)]
  unfold val sumPart
  simp only
  rw [C18_substitute_binderfree _ _ _ _ h.1, eval_subE, ev_fracLog, ev_num, lg_pow hb, Function.update_idem]
  push_cast
  rw [add_sub_cancel_right]

theorem val_sumPart_upper (hb : 2 ≤ b) {e : Expr} (h : ClosedForm ξ ρ n a b S .upper e) (q : ℕ) :
    val ξ ρ n (sumPart n S .upper a b e) (b ^ q) = sumSpec a b (val ξ ρ n e) (q + 1) .upper := by
  rw [← h.2 (q + 1) (by omega)]
  unfold val sumPart
  simp only
  rw [C18_substitute_binderfree _ _ _ _ h.1, eval_addE, ev_fracLog, ev_num, lg_pow hb, Function.update_idem]
  push_cast
  rfl

/-- With right closed forms and a right test of monotonicity, the sums give bounds at the powers of the divisor. -/
theorem sums_ok (ha : 0 < a) (hb : 2 ≤ b)
    (hC : ∀ t e poly, S.monotone 1 e poly = true → ClosedForm ξ ρ n a b S t e) (hM : MonotoneOk ξ ρ n S) :
    SumsOk ξ ρ n a b (fun N => ∃ q, N = b ^ q) S := by
  intro t e poly hm N hN ⟨q, hq⟩
  have ha' : (0 : ℝ) < a := by exact_mod_cast ha
  obtain ⟨h0, hmono⟩ := hM e poly hm
  have hC := hC t e poly hm
  subst hq
  cases t with
  | upper =>
    show _ ≤ _
    rw [val_sumPart_upper hb hC q]
    exact upper_sum ha' hb hmono q
  | lower =>
    cases q with
    | zero => simp at hN; omega
    | succ q =>
      show _ ≤ _
      rw [val_sumPart_lower hb hC q]
      exact lower_sum ha' hb h0 hmono q

/-- Without sums there are no restrictions on the points. -/
theorem sums_none (h : ∀ e poly, S.monotone 1 e poly = false) : SumsOk ξ ρ n a b (fun _ => True) S := by
  intro t e poly hm
  rw [h] at hm
  simp at hm

end

end Purrs.Bounds
