import Verif.Model.AlgEq
import Mathlib.FieldTheory.KummerExtension
import Mathlib.RingTheory.RootsOfUnity.Complex
import Mathlib.Analysis.SpecialFunctions.Pow.Real

/-!
# C08: the roots of `a x^n + k`
-/

namespace Purrs.AlgEq

open Polynomial

theorem rootOfUnity_eq (n j : ℕ) :
    rootOfUnity n j = Complex.exp (2 * Real.pi * Complex.I / n) ^ j := by
  unfold rootOfUnity
  rw [← Complex.exp_nat_mul, show (j : ℂ) * (2 * Real.pi * Complex.I / n)
    = (j * (2 * Real.pi / n)) * Complex.I by ring, Complex.exp_mul_I]
  ring

theorem cast_inv (n : ℕ) : (((1 : ℚ) / n : ℚ) : ℂ) = (n : ℂ)⁻¹ := by push_cast; rw [one_div]

theorem prod_range_list {M : Type*} [CommMonoid M] (f : ℕ → M) (n : ℕ) :
    ((List.range n).map f).prod = ∏ i ∈ Finset.range n, f i := by
  induction n with
  | zero => simp
  | succ n ih =>
    rw [List.range_succ, List.map_append, List.prod_append, ih, Finset.prod_range_succ]; simp

theorem val_pow {n : ℕ} (hn : 0 < n) (y : ℂ) (j : ℕ) :
    (y ^ (((1 : ℚ) / n : ℚ) : ℂ) * rootOfUnity n j) ^ n = y := by
  have hz := (Complex.isPrimitiveRoot_exp n hn.ne').pow_eq_one
  rw [mul_pow, rootOfUnity_eq, ← pow_mul, mul_comm j n, pow_mul, hz, one_pow, mul_one, cast_inv]
  exact Complex.cpow_nat_inv_pow y hn.ne'

/-- `x^n - y` is the product of the linear factors of the values the code forms from `y`. -/
theorem pow_sub_prod {n : ℕ} (hn : 0 < n) (y : ℂ) :
    (X ^ n - C y : ℂ[X]) = ((List.range n).map fun (j : ℕ) =>
      X - C (y ^ (((1 : ℚ) / n : ℚ) : ℂ) * rootOfUnity n j)).prod := by
  have hz := Complex.isPrimitiveRoot_exp n hn.ne'
  have hy : (y ^ (((1 : ℚ) / n : ℚ) : ℂ)) ^ n = y := by
    rw [cast_inv]; exact Complex.cpow_nat_inv_pow y hn.ne'
  rw [X_pow_sub_C_eq_prod hz hn hy, prod_range_list]
  apply Finset.prod_congr rfl
  intro i _
  rw [rootOfUnity_eq, mul_comm]

/-- Every value that is added satisfies `a x^n + k = 0`, whatever was known before. -/
theorem C08_values_are_roots {a k : ℚ} {n : ℕ} (ha : a ≠ 0) (hn : 0 < n) (known : List Root) (r : Root)
    (hr : r ∈ solveMonomial a n k known) : r ∈ known ∨ (a : ℂ) * r.val ^ n + k = 0 := by
  unfold solveMonomial at hr
  simp only [List.mem_append] at hr
  rcases hr with h | h
  · exact .inl h
  · right
    obtain ⟨j, _, hj⟩ := List.mem_filterMap.mp h
    split_ifs at hj
    rw [← Option.some.inj hj]
    dsimp only
    rw [val_pow hn]
    have : (a : ℂ) ≠ 0 := by exact_mod_cast ha
    push_cast
    field_simp
    ring

/-- Without known roots the result is `n` values, which are all the roots of `a x^n + k`, with
multiplicity; they are marked as simple. -/
theorem C08_all_roots {a k : ℚ} {n : ℕ} (ha : a ≠ 0) (hn : 0 < n) :
    (solveMonomial a n k []).length = n ∧
    (C (a : ℂ) * X ^ n + C (k : ℂ) : ℂ[X])
      = C (a : ℂ) * ((solveMonomial a n k []).map fun r => X - C r.val).prod ∧
    ∀ r ∈ solveMonomial a n k [], r.mult = 1 := by
  have e : solveMonomial a n k [] = (List.range n).map fun (j : ℕ) =>
      (⟨((-k / a : ℚ) : ℂ) ^ (((1 : ℚ) / n : ℚ) : ℂ) * rootOfUnity n j, false, 1⟩ : Root) := by
    unfold solveMonomial
    simp
  rw [e]
  refine ⟨by simp, ?_, by simp⟩
  rw [List.map_map]
  have h := pow_sub_prod hn ((-k / a : ℚ) : ℂ)
  have h2 : ((fun r : Root => (X - C r.val : ℂ[X])) ∘ fun (j : ℕ) =>
      (⟨((-k / a : ℚ) : ℂ) ^ (((1 : ℚ) / n : ℚ) : ℂ) * rootOfUnity n j, false, 1⟩ : Root))
      = fun (j : ℕ) => X - C (((-k / a : ℚ) : ℂ) ^ (((1 : ℚ) / n : ℚ) : ℂ) * rootOfUnity n j) := rfl
  rw [h2, ← h, mul_sub, ← C_mul]
  have : (a : ℂ) * ((-k / a : ℚ) : ℂ) = -k := by
    have : (a : ℂ) ≠ 0 := by exact_mod_cast ha
    push_cast; field_simp
  rw [this, C_neg, sub_neg_eq_add]

/-- The values added when `known` is not empty: those not skipped. -/
theorem solveMonomial_prod (a k : ℚ) (n : ℕ) (known : List Root) (P : ℕ → Prop) [DecidablePred P]
    (hP : ∀ j, P j ↔ ((known.any fun r => decide (r.val.re > 0)) = true ∧ j = 0) ∨
      ((known.any fun r => decide (¬ r.val.re > 0)) = true ∧ (j : ℤ) * 2 - (n % 2 : ℕ) = n)) :
    ((solveMonomial a n k known).map fun r => (X - C r.val : ℂ[X])).prod
      = (known.map fun r => (X - C r.val : ℂ[X])).prod
        * ∏ j ∈ (Finset.range n).filter (fun j => ¬ P j),
          (X - C (((-k / a : ℚ) : ℂ) ^ (((1 : ℚ) / n : ℚ) : ℂ) * rootOfUnity n j)) := by
  unfold solveMonomial
  simp only [← hP, List.map_append, List.prod_append]
  congr 1
  rw [Finset.prod_filter]
  rw [← prod_range_list]
  induction List.range n with
  | nil => simp
  | cons b l ih =>
    by_cases hb : P b
    · rw [List.filterMap_cons_none (by simp [hb]), ih]; simp [hb]
    · rw [List.filterMap_cons_some (by rw [if_neg hb]), List.map_cons, List.prod_cons, ih]
      simp [hb]

/-- The principal value of the `n`-th root of a rational `n`-th power of a positive number. -/
theorem principal_root {c y : ℚ} {n : ℕ} (hn : 0 < n) (hc : 0 < c) (h : c ^ n = y) :
    (y : ℂ) ^ (((1 : ℚ) / n : ℚ) : ℂ) = c := by
  rw [cast_inv, ← h]
  push_cast
  rw [show ((c : ℚ) : ℂ) = ((c : ℝ) : ℂ) by push_cast; rfl, ← Complex.ofReal_pow,
    show ((n : ℂ)⁻¹) = (((n : ℝ)⁻¹ : ℝ) : ℂ) by push_cast; rfl,
    ← Complex.ofReal_cpow (by positivity), Real.pow_rpow_inv_natCast (by exact_mod_cast hc.le) hn.ne']

theorem rootOfUnity_zero (n : ℕ) : rootOfUnity n 0 = 1 := by rw [rootOfUnity_eq]; simp

theorem rootOfUnity_half {m : ℕ} (hm : 0 < m) : rootOfUnity (2 * m) m = -1 := by
  unfold rootOfUnity
  have h : ((m : ℂ) * (2 * Real.pi / (2 * m : ℕ))) = Real.pi := by
    have : (m : ℂ) ≠ 0 := by exact_mod_cast hm.ne'
    push_cast; field_simp
  rw [h]; simp

theorem lin_identity {a k y : ℚ} {n : ℕ} (ha : a ≠ 0) (hn : 0 < n) (hy : y = -k / a) :
    (C (a : ℂ) * X ^ n + C (k : ℂ) : ℂ[X]) = C (a : ℂ) * ∏ j ∈ Finset.range n,
      (X - C ((y : ℂ) ^ (((1 : ℚ) / n : ℚ) : ℂ) * rootOfUnity n j)) := by
  rw [← prod_range_list, ← pow_sub_prod hn, mul_sub, ← C_mul]
  have : (a : ℂ) * (y : ℂ) = -k := by
    have : (a : ℂ) ≠ 0 := by exact_mod_cast ha
    rw [hy]; push_cast; field_simp
  rw [this, C_neg, sub_neg_eq_add]

/-- When a positive rational root is the only known one (`n` odd), it and the values added are all
the roots, each once. -/
theorem C08_known_positive {a k c : ℚ} {n : ℕ} (ha : a ≠ 0) (hn : 0 < n) (hc : 0 < c)
    (h : a * c ^ n + k = 0) (t : Bool) (m : ℕ) :
    (C (a : ℂ) * X ^ n + C (k : ℂ) : ℂ[X])
      = C (a : ℂ) * ((solveMonomial a n k [⟨(c : ℂ), t, m⟩]).map fun r => X - C r.val).prod := by
  have hy : c ^ n = -k / a := by field_simp; linarith
  rw [solveMonomial_prod a k n _ (fun j => j = 0)]
  · rw [lin_identity ha hn (y := -k / a) rfl]
    congr 1
    rw [← Finset.prod_filter_mul_prod_filter_not (Finset.range n) (fun j => j = 0)]
    congr 1
    have : (Finset.range n).filter (fun j => j = 0) = {0} := by
      ext j; simp only [Finset.mem_filter, Finset.mem_range, Finset.mem_singleton]
      constructor
      · exact fun h => h.2
      · intro h; subst h; exact ⟨hn, rfl⟩
    rw [this, Finset.prod_singleton, principal_root hn hc hy, rootOfUnity_zero]
    simp
  · intro j
    have : (0 : ℝ) < c := by exact_mod_cast hc
    simp [this]
    intro h'; linarith

/-- When both rational roots of an even binomial are known, they and the values added are all the
roots, each once. -/
theorem C08_known_even {a k c : ℚ} {n : ℕ} (ha : a ≠ 0) (hn : 0 < n) (hev : n % 2 = 0) (hc : 0 < c)
    (h : a * c ^ n + k = 0) (t : Bool) (m : ℕ) :
    (C (a : ℂ) * X ^ n + C (k : ℂ) : ℂ[X])
      = C (a : ℂ) * ((solveMonomial a n k [⟨(c : ℂ), t, m⟩, ⟨-(c : ℂ), t, m⟩]).map
          fun r => X - C r.val).prod := by
  have hy : c ^ n = -k / a := by field_simp; linarith
  obtain ⟨l, rfl⟩ : ∃ l, n = 2 * l := ⟨n / 2, by omega⟩
  have hl : 0 < l := by omega
  rw [solveMonomial_prod a k (2 * l) _ (fun j => j = 0 ∨ j = l)]
  · rw [lin_identity ha hn (y := -k / a) rfl]
    congr 1
    rw [← Finset.prod_filter_mul_prod_filter_not (Finset.range (2 * l)) (fun j => j = 0 ∨ j = l)]
    congr 1
    have : (Finset.range (2 * l)).filter (fun j => j = 0 ∨ j = l) = {0, l} := by
      ext j; simp only [Finset.mem_filter, Finset.mem_range, Finset.mem_insert, Finset.mem_singleton]
      omega
    rw [this, Finset.prod_pair (by omega)]
    rw [principal_root hn hc hy, rootOfUnity_zero, rootOfUnity_half hl]
    simp
  · intro j
    have : (0 : ℝ) < c := by exact_mod_cast hc
    simp [this, this.le]
    omega

/-- `2 x⁴ - 32 = 2 (x - 2)(x + 2)(x - 2i)(x + 2i)`. -/
example : (2 : ℚ) * 2 ^ 4 + (-32) = 0 ∧ (4 : ℕ) % 2 = 0 := by norm_num

end Purrs.AlgEq
