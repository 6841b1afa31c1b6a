import Verif.Model.AlgEq
import Verif.Props.IntUtil
import Mathlib.Algebra.Polynomial.Expand

/-!
# C09: detection of nested polynomials
-/

namespace Purrs.AlgEq

open Polynomial

theorem gcdLoop_nat (a b : ℕ) : (gcdLoop a b).toNat = Nat.gcd a b := by
  have h := C02_gcd_nonneg (n := (a : Int)) (m := (b : Int)) (by omega) (by omega)
  rw [h]; simp

theorem gcdFold_spec (p : ℚ[X]) (l : List ℕ) : ∀ n0 : ℕ, 0 < n0 →
    let r := l.foldl (fun (n j : ℕ) => if n > 1 ∧ p.coeff j ≠ 0 then (gcdLoop n j).toNat else n) n0
    0 < r ∧ r ∣ n0 ∧ (∀ j ∈ l, p.coeff j ≠ 0 → r ∣ j) ∧
      (∀ m, m ∣ n0 → (∀ j ∈ l, p.coeff j ≠ 0 → m ∣ j) → m ∣ r) := by
  induction l with
  | nil => intro n0 h; simp [h]
  | cons a l ih =>
    intro n0 h
    simp only [List.foldl_cons]
    by_cases hc : n0 > 1 ∧ p.coeff a ≠ 0
    · rw [if_pos hc, gcdLoop_nat]
      obtain ⟨h0, h1, h2, h3⟩ := ih (Nat.gcd n0 a) (Nat.gcd_pos_of_pos_left _ h)
      refine ⟨h0, h1.trans (Nat.gcd_dvd_left _ _), ?_, ?_⟩
      · intro j hj hp
        rcases List.mem_cons.mp hj with e | e
        · subst e; exact h1.trans (Nat.gcd_dvd_right _ _)
        · exact h2 j e hp
      · intro m hm hall
        exact h3 m (Nat.dvd_gcd hm (hall a List.mem_cons_self hc.2))
          (fun j hj hp => hall j (List.mem_cons_of_mem _ hj) hp)
    · rw [if_neg hc]
      obtain ⟨h0, h1, h2, h3⟩ := ih n0 h
      refine ⟨h0, h1, ?_, ?_⟩
      · intro j hj hp
        rcases List.mem_cons.mp hj with e | e
        · subst e
          have : n0 = 1 := by
            have : ¬ n0 > 1 := fun h' => hc ⟨h', hp⟩
            omega
          exact h1.trans (by rw [this]; exact one_dvd _)
        · exact h2 j e hp
      · intro m hm hall
        exact h3 m hm (fun j hj hp => hall j (List.mem_cons_of_mem _ hj) hp)

theorem firstExp_spec {p : ℚ[X]} (h0 : p.natDegree ≠ 0) (h1 : p.coeff 1 = 0) :
    2 ≤ firstExp p ∧ firstExp p ≤ p.natDegree ∧ p.coeff (firstExp p) ≠ 0 ∧
      ∀ j, 1 ≤ j → j < firstExp p → p.coeff j = 0 := by
  have hd : p.coeff p.natDegree ≠ 0 := by
    have : p ≠ 0 := fun e => h0 (by rw [e]; simp)
    exact leadingCoeff_ne_zero.mpr this
  have hd2 : 2 ≤ p.natDegree := by
    rcases Nat.lt_or_ge p.natDegree 2 with h | h
    · have : p.natDegree = 1 := by omega
      rw [this] at hd; exact absurd h1 hd
    · exact h
  unfold firstExp
  cases hf : (List.range' 2 (p.natDegree - 1)).find? fun i => decide (p.coeff i ≠ 0) with
  | none =>
    have := List.find?_eq_none.mp hf p.natDegree (List.mem_range'_1.mpr (by omega))
    simp at this
    exact absurd (by rw [this]; simp) h0
  | some i =>
    obtain ⟨hi, pre, post, he, hpre⟩ := List.find?_eq_some_iff_append.mp hf
    have hm : i ∈ List.range' 2 (p.natDegree - 1) := by rw [he]; simp
    have hm' := List.mem_range'_1.mp hm
    simp only [Option.getD_some]
    refine ⟨by omega, by omega, of_decide_eq_true hi, ?_⟩
    intro j hj hji
    rcases Nat.lt_or_ge j 2 with h | h
    · have : j = 1 := by omega
      rw [this]; exact h1
    · have hjm : j ∈ List.range' 2 (p.natDegree - 1) := List.mem_range'_1.mpr (by omega)
      rw [he, List.mem_append] at hjm
      have hs : (List.range' 2 (p.natDegree - 1)).Pairwise (· < ·) := List.pairwise_lt_range'
      rw [he, List.pairwise_append] at hs
      rcases hjm with e | e
      · have := hpre j e; simpa using this
      · rcases List.mem_cons.mp e with e | e
        · omega
        · have := (List.pairwise_cons.mp hs.2.1).1 j e
          omega

theorem gcdExps_spec {p : ℚ[X]} (h0 : p.natDegree ≠ 0) (h1 : p.coeff 1 = 0) :
    0 < gcdExps p (firstExp p) ∧
    (∀ j, 1 ≤ j → p.coeff j ≠ 0 → gcdExps p (firstExp p) ∣ j) ∧
    (∀ m, (∀ j, 1 ≤ j → p.coeff j ≠ 0 → m ∣ j) → m ∣ gcdExps p (firstExp p)) := by
  obtain ⟨f2, fd, fc, fb⟩ := firstExp_spec h0 h1
  obtain ⟨g0, g1, g2, g3⟩ := gcdFold_spec p (List.range' (firstExp p + 1) (p.natDegree - firstExp p))
    (firstExp p) (by omega)
  refine ⟨g0, ?_, ?_⟩
  · intro j hj hc
    rcases Nat.lt_trichotomy j (firstExp p) with h | h | h
    · exact absurd (fb j hj h) hc
    · rw [h]; exact g1
    · exact g2 j (List.mem_range'_1.mpr (by
        have := le_natDegree_of_ne_zero hc
        omega)) hc
  · intro m hm
    exact g3 m (hm _ (by omega) fc) (fun j hj hc => hm j (by
      have := List.mem_range'_1.mp hj; omega) hc)

theorem nestedPoly_eq (p : ℚ[X]) (n m : ℕ) :
    (List.range' 1 m).foldl (fun q j => q + C (p.coeff (n * j)) * X ^ j) (C (p.coeff 0))
      = ∑ j ∈ Finset.range (m + 1), C (p.coeff (n * j)) * X ^ j := by
  induction m with
  | zero => simp
  | succ m ih =>
    rw [List.range'_1_concat, List.foldl_append, ih, Finset.sum_range_succ _ (m + 1)]
    simp [Nat.add_comm 1 m]

theorem nested_comp {p : ℚ[X]} {n : ℕ} (hn : 0 < n)
    (hdvd : ∀ j, 1 ≤ j → p.coeff j ≠ 0 → n ∣ j) :
    p = (∑ j ∈ Finset.range (p.natDegree / n + 1), C (p.coeff (n * j)) * X ^ j).comp (X ^ n) := by
  ext k
  rw [← expand_eq_comp_X_pow, coeff_expand hn, finsetSum_coeff]
  simp only [coeff_C_mul, coeff_X_pow, mul_ite, mul_one, mul_zero, Finset.sum_ite_eq, Finset.mem_range]
  by_cases hk : n ∣ k
  · rw [if_pos hk, Nat.mul_div_cancel' hk]
    split_ifs with h
    · rfl
    · have : p.natDegree < k := by
        by_contra hc
        exact h (Nat.lt_succ_of_le (Nat.div_le_div_right (not_lt.mp hc)))
      exact coeff_eq_zero_of_natDegree_lt this
  · rw [if_neg hk]
    by_contra hc
    rcases Nat.eq_zero_or_pos k with h | h
    · rw [h] at hk; exact hk (dvd_zero _)
    · exact hk (hdvd k h hc)

/-- A non-constant `p` is `q(x^g)` for the returned `g` and `q`, and every exponent `m` for which
`p` is a polynomial in `x^m` divides `g`: `g` is the largest. -/
theorem C09_nested {p : ℚ[X]} (h0 : p.natDegree ≠ 0) :
    p = (isNested p).2.comp (X ^ (isNested p).1) ∧
      (∀ (m : ℕ) (r : ℚ[X]), p = r.comp (X ^ m) → m ∣ (isNested p).1 ∧ m ≤ (isNested p).1) := by
  have key : ∀ (m : ℕ) (r : ℚ[X]), p = r.comp (X ^ m) → ∀ j, 1 ≤ j → p.coeff j ≠ 0 → m ∣ j := by
    intro m r hr j hj hc
    by_cases hm : m = 0
    · rw [hm, pow_zero] at hr
      have : p.natDegree = 0 := by
        rw [hr, ← C_1, comp_C]; simp
      exact absurd this h0
    · by_contra hnd
      apply hc
      rw [hr, ← expand_eq_comp_X_pow, coeff_expand (Nat.pos_of_ne_zero hm), if_neg hnd]
  by_cases h1 : p.coeff 1 ≠ 0
  · have e : isNested p = (1, p) := by unfold isNested; rw [if_neg h0, if_pos h1]
    rw [e]
    refine ⟨by simp, fun m r hr => ?_⟩
    have := key m r hr 1 (le_refl _) h1
    exact ⟨this, Nat.le_of_dvd one_pos this⟩
  · have h1' : p.coeff 1 = 0 := not_not.mp h1
    obtain ⟨g0, g1, g2⟩ := gcdExps_spec h0 h1'
    have e : (isNested p).1 = gcdExps p (firstExp p) := by
      unfold isNested; rw [if_neg h0, if_neg h1]; simp only []; split_ifs <;> rfl
    refine ⟨?_, fun m r hr => ?_⟩
    · by_cases hn : gcdExps p (firstExp p) > 1
      · have e2 : isNested p = (gcdExps p (firstExp p),
            ∑ j ∈ Finset.range (p.natDegree / gcdExps p (firstExp p) + 1),
              C (p.coeff (gcdExps p (firstExp p) * j)) * X ^ j) := by
          unfold isNested; rw [if_neg h0, if_neg h1]; simp only [if_pos hn, nestedPoly_eq]
        rw [e2]
        exact nested_comp g0 g1
      · have e2 : isNested p = (gcdExps p (firstExp p), p) := by
          unfold isNested; rw [if_neg h0, if_neg h1]; simp only [if_neg hn]
        have e3 : gcdExps p (firstExp p) = 1 := by omega
        rw [e2, e3]; simp
    · rw [e]
      have := g2 m (key m r hr)
      exact ⟨this, Nat.le_of_dvd g0 this⟩

/-- A constant polynomial is returned as it is, with the answer 0. -/
theorem C09_constant (c : ℚ) : isNested (C c) = (0, C c) := by
  unfold isNested; rw [if_pos (natDegree_C c)]

/-- `x⁶ + x⁴ + 5` is nested with exponent 2. -/
example : 2 ∣ (isNested (X ^ 6 + X ^ 4 + C 5 : ℚ[X])).1 ∧ (isNested (X ^ 6 + X ^ 4 + C 5 : ℚ[X])).1 ∣ 2 := by
  have hd : (X ^ 6 + X ^ 4 + C 5 : ℚ[X]).natDegree = 6 := by compute_degree!
  have h := C09_nested (p := (X ^ 6 + X ^ 4 + C 5 : ℚ[X])) (by rw [hd]; norm_num)
  have h1 : (X ^ 6 + X ^ 4 + C 5 : ℚ[X]).coeff 1 = 0 := by
    simp [coeff_X_pow]
  refine ⟨(h.2 2 (X ^ 3 + X ^ 2 + C 5) (by simp; ring)).1, ?_⟩
  have e : (isNested (X ^ 6 + X ^ 4 + C 5 : ℚ[X])).1
      = gcdExps (X ^ 6 + X ^ 4 + C 5 : ℚ[X]) (firstExp (X ^ 6 + X ^ 4 + C 5 : ℚ[X])) := by
    unfold isNested; rw [if_neg (by rw [hd]; norm_num), if_neg (by rw [h1]; simp)]
    simp only []; split_ifs <;> rfl
  rw [e]
  obtain ⟨_, g1, _⟩ := gcdExps_spec (p := (X ^ 6 + X ^ 4 + C 5 : ℚ[X])) (by rw [hd]; norm_num) h1
  have d6 := g1 6 (by norm_num) (by simp [coeff_X_pow])
  have d4 := g1 4 (by norm_num) (by simp [coeff_X_pow])
  exact (Nat.dvd_sub d6 d4)

end Purrs.AlgEq
