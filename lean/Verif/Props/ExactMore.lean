import Verif.Props.ExactComplete
import Verif.Props.IntUtil
import Mathlib.Tactic.NormNum

set_option linter.unusedSectionVars false

/-!
# C31/C32: the characteristic equation, order 1, variable coefficients
-/

namespace Purrs.Exact

open Polynomial Finset

variable {K : Type} [Field K]

theorem foldr_add_sum {α M : Type} [AddCommMonoid M] (l : List α) (F : α → M) :
    l.foldr (fun i s => s + F i) 0 = (l.map F).sum := by
  induction l with
  | nil => rfl
  | cons a l ih => rw [List.foldr_cons, ih, List.map_cons, List.sum_cons, add_comm]

/-- The recurrence (without inhomogeneous term) whose coefficients are in the vector `co`. -/
def recOf (co : List ℚ) : LinRec ℚ := ⟨co.length - 1, fun j => co.getD j 0, fun _ => 0, 0⟩

theorem sum_flip (k : ℕ) (c : ℕ → ℚ) :
    ∑ i ∈ range k, (X : ℚ[X]) ^ i * C (-c (k - i)) = - ∑ j ∈ range k, C (c (j + 1)) * X ^ (k - (j + 1)) := by
  rw [← sum_neg_distrib, ← sum_range_reflect]
  refine sum_congr rfl fun j hj => ?_
  rw [mem_range] at hj
  rw [show k - (k - 1 - j) = j + 1 by omega, show k - 1 - j = k - (j + 1) by omega, C_neg]
  ring

/-- `build_characteristic_equation` returns a non-zero integer multiple of the characteristic
polynomial, and it has integer coefficients. -/
theorem C31_characteristic_equation (co : List ℚ) :
    (∃ l : ℤ, 0 < l ∧ buildCharEq co = C (l : ℚ) * charPoly (recOf co)) ∧
    ∃ F : ℤ[X], buildCharEq co = F.map (Int.castRingHom ℚ) := by
  have hden : ∀ d ∈ charDenominators co, d ≠ 0 := by
    intro d hd
    unfold charDenominators at hd
    rw [List.mem_filterMap] at hd
    obtain ⟨q, _, h⟩ := hd
    split at h
    · rw [Option.some.injEq] at h
      rw [← h]; exact_mod_cast q.den_nz
    · exact absurd h (by simp)
  have hdiv : ∀ i, ((co.getD i 0).den : ℤ) ∣ lcmVec (charDenominators co) := by
    intro i
    by_cases h1 : (co.getD i 0).den = 1
    · rw [h1]; exact one_dvd _
    · apply (C03_lcm_is_lcm _).1
      unfold charDenominators
      rw [List.mem_filterMap]
      refine ⟨co.getD i 0, ?_, by rw [if_pos h1]⟩
      by_cases hi : i < co.length
      · rw [List.getD_eq_getElem _ _ hi, List.mem_reverse]; exact List.getElem_mem hi
      · rw [List.getD_eq_default _ _ (by omega)] at h1; exact absurd rfl h1
  have hpos := C03_lcm_pos _ hden
  have key : ∃ l : ℤ, 0 < l ∧ buildCharEq co = C (l : ℚ) * charPoly (recOf co) ∧
      ∀ i, ∃ z : ℤ, co.getD i 0 * (l : ℚ) = z := by
    have hint : ∀ i, ∃ z : ℤ, co.getD i 0 * ((lcmVec (charDenominators co) : ℤ) : ℚ) = z := by
      intro i
      obtain ⟨c, hc⟩ := hdiv i
      refine ⟨(co.getD i 0).num * c, ?_⟩
      rw [hc]
      push_cast
      rw [← mul_assoc, Rat.mul_den_eq_num]
    by_cases h : (charDenominators co).length ≠ 0
    · refine ⟨lcmVec (charDenominators co), hpos, ?_, hint⟩
      unfold buildCharEq
      dsimp only
      rw [if_pos h, foldr_add_sum]
      show ∑ i ∈ range (co.length - 1), _ + _ = _
      rw [sum_flip (co.length - 1) (fun i => if i = 0 then co.getD i 0 else co.getD i 0 * (lcmVec (charDenominators co) : ℚ))]
      simp only [charPoly, recOf, Nat.add_eq_zero_iff, one_ne_zero, and_false, if_false]
      rw [mul_sub, mul_sum, add_comm, ← sub_eq_add_neg]
      congr 1
      refine sum_congr rfl fun j _ => ?_
      rw [C_mul]; ring
    · refine ⟨1, one_pos, ?_, ?_⟩
      · unfold buildCharEq
        dsimp only
        rw [if_neg h, foldr_add_sum]
        show ∑ i ∈ range (co.length - 1), _ + _ = _
        rw [sum_flip (co.length - 1) (fun i => co.getD i 0)]
        simp only [charPoly, recOf, Int.cast_one, C_1, one_mul]
        ring
      · intro i
        have h0 : charDenominators co = [] := List.length_eq_zero_iff.mp (not_not.mp h)
        have := hint i
        rwa [h0] at this
  obtain ⟨l, h1, h2, h3⟩ := key
  refine ⟨⟨l, h1, h2⟩, ?_⟩
  rw [h2]
  choose z hz using h3
  refine ⟨C l * X ^ (co.length - 1) - ∑ j ∈ range (co.length - 1), C (z (j + 1)) * X ^ (co.length - 1 - (j + 1)), ?_⟩
  simp only [charPoly, recOf, Polynomial.map_sub, Polynomial.map_mul, Polynomial.map_pow, map_X,
    Polynomial.map_sum, map_C, mul_sub, mul_sum]
  congr 1
  refine sum_congr rfl fun j _ => ?_
  rw [← mul_assoc, ← C_mul, mul_comm (l : ℚ), hz]
  rfl

/-- `return_sum`: the sum from `lower` on. -/
theorem returnSum_spec [DecidableEq K] (lower : ℕ) (q : K[X]) (alpha lambda : K) (hl : lambda ≠ 0) (n : ℕ)
    (hn : lower ≤ n + 1) :
    returnSum (alpha ≠ lambda) lower q alpha lambda n
      = ∑ j ∈ Ico lower (n + 1), q.eval (j : K) * alpha ^ j * lambda ^ ((n : ℤ) - j) := by
  unfold returnSum
  have hf : ∀ (l : List ℕ) (F : ℕ → K) (c : K), l.foldl (fun s j => s - F j) c = c - (l.map F).sum := by
    intro l F c
    induction l generalizing c with
    | nil => simp
    | cons a l ih => simp only [List.foldl_cons, List.map_cons, List.sum_cons, ih]; ring
  dsimp only
  rw [hf]
  have hy : (if decide (alpha ≠ lambda) = true then alpha / lambda else 1) = alpha / lambda := by
    by_cases h : alpha = lambda
    · rw [if_neg (by simp [h]), h, div_self hl]
    · rw [if_pos (by simp [h])]
  rw [hy]
  have e : ∀ j : ℕ, q.eval (j : K) * (alpha / lambda) ^ j = q.eval (j : K) * alpha ^ j * lambda ^ (-(j : ℤ)) := by
    intro j
    rw [div_pow, zpow_neg, zpow_natCast]; ring
  simp only [e]
  show (∑ j ∈ range (n + 1), _ - ∑ j ∈ range lower, _) * _ = _
  rw [← sum_range_add_sum_Ico _ hn, add_sub_cancel_left, sum_mul]
  refine sum_congr rfl fun j _ => ?_
  rw [sub_eq_add_neg, zpow_add₀ hl, zpow_natCast]; ring

/-- The inhomogeneous term of the decomposition. -/
def epSum (ts : List (EPTerm K)) (n : ℕ) : K :=
  (ts.map fun t => (t.poly.eval (n : K) + t.rest n) * t.base ^ n).sum

/-- Order 1, old method: the solution is the sequence itself. -/
theorem C31_old_method_order1 [DecidableEq K] (lambda : K) (hl : lambda ≠ 0) (f : ℕ) (ts : List (EPTerm K))
    (x : ℕ → K) (hx : ∀ n, f ≤ n → x (n + 1) = lambda * x n + epSum ts (n + 1)) :
    ∀ n, f ≤ n → oldSolution1 lambda f ts (x f) n = x n := by
  have hsum : ∀ n, f ≤ n → solveOrder1 lambda f ts n
      = ∑ j ∈ Ico (f + 1) (n + 1), epSum ts j * lambda ^ ((n : ℤ) - j) := by
    intro n hn
    unfold solveOrder1
    rw [foldr_add_sum, foldr_add_sum]
    have hr : (ts.map fun t => returnSum (t.base ≠ lambda) (f + 1) t.poly t.base lambda n)
        = ts.map fun t => ∑ j ∈ Ico (f + 1) (n + 1), t.poly.eval (j : K) * t.base ^ j * lambda ^ ((n : ℤ) - j) := by
      apply List.map_congr_left
      intro t _
      exact returnSum_spec (f + 1) t.poly t.base lambda hl n (by omega)
    rw [hr]
    clear hr hx
    unfold epSum
    induction ts with
    | nil => simp
    | cons t ts ih =>
      simp only [List.map_cons, List.sum_cons, add_mul, sum_add_distrib] at ih ⊢
      rw [← ih]
      have e : lambda ^ n * ∑ h ∈ Icc (f + 1) n, lambda ^ (-(h : ℤ)) * t.rest h * t.base ^ h
          = ∑ j ∈ Ico (f + 1) (n + 1), t.rest j * t.base ^ j * lambda ^ ((n : ℤ) - j) := by
        rw [mul_sum]
        have : Icc (f + 1) n = Ico (f + 1) (n + 1) := by ext; simp
        rw [this]
        refine sum_congr rfl fun j _ => ?_
        rw [sub_eq_add_neg, zpow_add₀ hl, zpow_natCast]; ring
      rw [e]
      ring
  intro n hn
  unfold oldSolution1
  rw [hsum n hn]
  induction n, hn using Nat.le_induction with
  | base => simp
  | succ n hn ih =>
    rw [hx n hn, ← ih, sum_Ico_succ_top (by omega)]
    rw [show ((n + 1 : ℕ) : ℤ) - ((f : ℤ) - 1 + 1) = ((n : ℤ) - ((f : ℤ) - 1 + 1)) + 1 by push_cast; ring,
      zpow_add₀ hl, zpow_one, mul_add, mul_sum]
    have : ∀ j ∈ Ico (f + 1) (n + 1), epSum ts j * lambda ^ (((n + 1 : ℕ) : ℤ) - j)
        = lambda * (epSum ts j * lambda ^ ((n : ℤ) - j)) := by
      intro j _
      rw [show ((n + 1 : ℕ) : ℤ) - (j : ℤ) = ((n : ℤ) - j) + 1 by push_cast; ring, zpow_add₀ hl, zpow_one]; ring
    rw [sum_congr rfl this, sub_self, zpow_zero]
    ring

/-- First-order recurrence with a variable coefficient: the formula returned is the sequence itself, if
the coefficient does not vanish after the first valid index. -/
theorem C32_variable_coefficient (alpha p : ℕ → K) (f : ℕ) (ha : ∀ k, f < k → alpha k ≠ 0) (x : ℕ → K)
    (hx : ∀ n, f ≤ n → x (n + 1) = alpha (n + 1) * x n + p (n + 1)) :
    ∀ n, f ≤ n → solveVar1 alpha p f (x f) n = x n := by
  have hpf : ∀ m, ∏ k ∈ Icc (f + 1) m, alpha k ≠ 0 := by
    intro m
    rw [prod_ne_zero_iff]
    intro k hk
    rw [mem_Icc] at hk
    exact ha k (by omega)
  intro n hn
  unfold solveVar1
  dsimp only
  induction n, hn using Nat.le_induction with
  | base => simp
  | succ n hn ih =>
    rw [hx n hn, ← ih]
    have h1 : Icc (f + 1) (n + 1) = insert (n + 1) (Icc (f + 1) n) := by
      ext j; simp only [mem_Icc, mem_insert]; omega
    have hne := hpf (n + 1)
    have h2 : ∏ k ∈ Icc (f + 1) (n + 1), alpha k = alpha (n + 1) * ∏ k ∈ Icc (f + 1) n, alpha k := by
      rw [h1, prod_insert (by simp)]
    have h3 : ∑ k ∈ Icc (f + 1) (n + 1), p k / ∏ k ∈ Icc (f + 1) k, alpha k
        = p (n + 1) / (∏ k ∈ Icc (f + 1) (n + 1), alpha k)
          + ∑ k ∈ Icc (f + 1) n, p k / ∏ k ∈ Icc (f + 1) k, alpha k := by
      rw [h1, sum_insert (by simp), ← h1]
    rw [h3, add_assoc, mul_add, mul_div_cancel₀ _ hne, h2]
    ring

end Purrs.Exact
