import Verif.Model.Zeilberger
import Verif.Props.Gosper
import Mathlib.Data.Nat.Choose.Sum

/-!
# C49, C76, C77: Zeilberger's algorithm

The specification: the ratio of the values of the linear combination of terms (C49), the sums of the values of the term (C76, C77).
-/

set_option linter.unusedSectionVars false

namespace Purrs.Zeilberger

open Polynomial

noncomputable section

open Classical

variable {K : Type} [Field K] {O : Ops K}

/-! ### Step one -/

theorem foldl_prod (f : ℕ → K[X]) (n : ℕ) : (List.range n).foldl (fun q (i : ℕ) => q * f i) 1 = ∏ i ∈ Finset.range n, f i := by
  induction n with
  | zero => simp
  | succ n ih => rw [List.range_succ, List.foldl_append, ih, Finset.prod_range_succ]; simp

theorem p0_eq (s1 s2 : ℕ → K[X]) (order : ℕ) (a : ℕ → K) :
    p0 s1 s2 order a = ∑ j ∈ Finset.range (order + 1), C (a j) * (∏ i ∈ Finset.range j, s1 (j - i))
      * ∏ i ∈ Finset.range (order - j), s2 (j + 1 + i) := by
  unfold p0
  simp only [foldl_prod]
  generalize order + 1 = n
  induction n with
  | zero => simp
  | succ n ih => rw [List.range_succ, List.foldl_append, ih, Finset.sum_range_succ]; simp

theorem prods_eq (s2 : ℕ → K[X]) (order : ℕ) :
    prods s2 order = (∏ i ∈ Finset.range order, s2 (i + 1), taylor 1 (∏ i ∈ Finset.range order, s2 (i + 1))) := by
  unfold prods
  induction order with
  | zero => simp
  | succ n ih =>
    rw [List.range_succ, List.foldl_append, ih, Finset.prod_range_succ, taylor_mul]; simp

/-- `s1 i / s2 i` is the ratio of `F(m + i, k)` and `F(m + i - 1, k)`, and `r.1 / r.2` that of `F(m, k + 1)` and `F(m, k)`. -/
structure Ratios (F : ℤ → ℤ → K) (m : ℤ) (s1 s2 : ℕ → K[X]) (r : K[X] × K[X]) (order : ℕ) : Prop where
  inM : ∀ i, 1 ≤ i → i ≤ order → ∀ k : ℤ, (s2 i).eval (k : K) * F (m + i) k = (s1 i).eval (k : K) * F (m + i - 1) k
  inK : ∀ k : ℤ, r.2.eval (k : K) * F m (k + 1) = r.1.eval (k : K) * F m k

/-- The sign is changed in the numerator and in the denominator. -/
theorem C49_fixSign (neg : Bool) (p : K[X] × K[X]) (u v : K) (k : K) :
    (fixSign neg p).2.eval k * u = (fixSign neg p).1.eval k * v ↔ p.2.eval k * u = p.1.eval k * v := by
  cases neg with
  | false => rfl
  | true =>
    simp only [fixSign, if_true, eval_mul, eval_C]
    constructor <;> intro h <;> linear_combination -h

/-- The linear combination of the terms. -/
def combination (F : ℤ → ℤ → K) (m : ℤ) (order : ℕ) (a : ℕ → K) (k : ℤ) : K := ∑ j ∈ Finset.range (order + 1), a j * F (m + j) k

theorem inM_prod {F : ℤ → ℤ → K} {m : ℤ} {s1 s2 : ℕ → K[X]} {r : K[X] × K[X]} {order : ℕ} (h : Ratios F m s1 s2 r order) (k : ℤ)
    (j : ℕ) (hj : j ≤ order) :
    (∏ i ∈ Finset.range j, (s2 (i + 1)).eval (k : K)) * F (m + j) k = (∏ i ∈ Finset.range j, (s1 (i + 1)).eval (k : K)) * F m k := by
  induction j with
  | zero => simp
  | succ j ih =>
    have e := h.inM (j + 1) (by omega) hj k
    have i := ih (by omega)
    rw [Finset.prod_range_succ, Finset.prod_range_succ]
    rw [show m + ((j + 1 : ℕ) : ℤ) - 1 = m + j by push_cast; ring] at e
    linear_combination (∏ i ∈ Finset.range j, (s2 (i + 1)).eval (k : K)) * e + (s1 (j + 1)).eval (k : K) * i

theorem combination_p0 {F : ℤ → ℤ → K} {m : ℤ} {s1 s2 : ℕ → K[X]} {r : K[X] × K[X]} {order : ℕ} (h : Ratios F m s1 s2 r order)
    (a : ℕ → K) (k : ℤ) :
    (∏ i ∈ Finset.range order, (s2 (i + 1)).eval (k : K)) * combination F m order a k = (p0 s1 s2 order a).eval (k : K) * F m k := by
  rw [p0_eq, eval_finsetSum, combination, Finset.mul_sum, Finset.sum_mul]
  refine Finset.sum_congr rfl fun j hj => ?_
  have hj' : j ≤ order := by have := Finset.mem_range.mp hj; omega
  simp only [eval_mul, eval_C, eval_prod]
  have e1 : ∏ i ∈ Finset.range j, (s1 (j - i)).eval (k : K) = ∏ i ∈ Finset.range j, (s1 (i + 1)).eval (k : K) := by
    rw [← Finset.prod_range_reflect]
    refine Finset.prod_congr rfl fun i hi => ?_
    have := Finset.mem_range.mp hi
    congr 2; omega
  have e2 : ∏ i ∈ Finset.range order, (s2 (i + 1)).eval (k : K)
      = (∏ i ∈ Finset.range j, (s2 (i + 1)).eval (k : K)) * ∏ i ∈ Finset.range (order - j), (s2 (j + 1 + i)).eval (k : K) := by
    conv_lhs => rw [show order = j + (order - j) by omega]
    rw [Finset.prod_range_add]
    congr 1
    exact Finset.prod_congr rfl fun i _ => by congr 2; omega
  rw [e1, e2]
  linear_combination (a j * ∏ i ∈ Finset.range (order - j), (s2 (j + 1 + i)).eval (k : K)) * inM_prod h k j hj'

/-- C49: step one: the ratio of consecutive values of the combination `t` is `p0(k+1)/p0(k) r(k)/s(k)`, if no denominator is zero. -/
theorem C49_step_one {F : ℤ → ℤ → K} {m : ℤ} {s1 s2 : ℕ → K[X]} {r : K[X] × K[X]} {order : ℕ} (h : Ratios F m s1 s2 r order)
    (a : ℕ → K) (k : ℤ) (h1 : ∀ i, 1 ≤ i → i ≤ order → (s2 i).eval (k : K) ≠ 0)
    (h2 : ∀ i, 1 ≤ i → i ≤ order → (s2 i).eval ((k + 1 : ℤ) : K) ≠ 0) :
    (p0 s1 s2 order a).eval (k : K) * (stepOne s2 r order).2.eval (k : K) * combination F m order a (k + 1)
      = (p0 s1 s2 order a).eval ((k + 1 : ℤ) : K) * (stepOne s2 r order).1.eval (k : K) * combination F m order a k := by
  have q1 := combination_p0 h a k
  have q2 := combination_p0 h a (k + 1)
  have hr := h.inK k
  have n1 : ∏ i ∈ Finset.range order, (s2 (i + 1)).eval (k : K) ≠ 0 :=
    Finset.prod_ne_zero_iff.mpr fun i hi => h1 _ (by omega) (by have := Finset.mem_range.mp hi; omega)
  have n2 : ∏ i ∈ Finset.range order, (s2 (i + 1)).eval ((k + 1 : ℤ) : K) ≠ 0 :=
    Finset.prod_ne_zero_iff.mpr fun i hi => h2 _ (by omega) (by have := Finset.mem_range.mp hi; omega)
  have e2 : (stepOne s2 r order).2.eval (k : K) = r.2.eval (k : K) * ∏ i ∈ Finset.range order, (s2 (i + 1)).eval ((k + 1 : ℤ) : K) := by
    unfold stepOne
    rw [prods_eq]
    simp only [eval_mul, taylor_eval, eval_prod]
    push_cast; rfl
  have e1 : (stepOne s2 r order).1.eval (k : K) = r.1.eval (k : K) * ∏ i ∈ Finset.range order, (s2 (i + 1)).eval (k : K) := by
    unfold stepOne
    rw [prods_eq]
    simp only [eval_mul, eval_prod]
  rw [e1, e2]
  linear_combination ((p0 s1 s2 order a).eval (k : K) * r.2.eval (k : K)) * q2
    - ((p0 s1 s2 order a).eval ((k + 1 : ℤ) : K) * r.1.eval (k : K)) * q1
    + ((p0 s1 s2 order a).eval (k : K) * (p0 s1 s2 order a).eval ((k + 1 : ℤ) : K)) * hr

/-! ### Step two -/

variable (O) in
/-- The specification of `gcd`: a common divisor; and of the numerator and denominator of a fraction. -/
structure OpsOk : Prop where
  left : ∀ p q, p ≠ 0 → O.gcd p q ∣ p
  right : ∀ p q, p ≠ 0 → O.gcd p q ∣ q
  numDen : ∀ p q, p ≠ 0 → q ≠ 0 → (O.numDen p q).1 ≠ 0 ∧ (O.numDen p q).2 ≠ 0 ∧ (O.numDen p q).1 * q = p * (O.numDen p q).2

theorem taylor_cancel (k : K) (p : K[X]) : taylor (-k) (taylor k p) = p := by
  rw [taylor_taylor]; simp

theorem taylor_ne {k : K} {p : K[X]} (h : p ≠ 0) : taylor k p ≠ 0 := by
  intro h0
  apply h
  have := taylor_cancel k p
  rw [h0] at this
  simpa using this.symm

theorem foldl_taylor (s c : K[X]) (i : ℕ) :
    (List.range i).foldl (fun c (j : ℕ) => c * taylor (-((j : K) + 1)) s) c = c * ∏ j ∈ Finset.range i, taylor (-((j : K) + 1)) s := by
  induction i with
  | zero => simp
  | succ i ih => rw [List.range_succ, List.foldl_append, ih, Finset.prod_range_succ]; simp [mul_assoc]

theorem taylor_prod_range (s : K[X]) (i : ℕ) :
    taylor 1 (∏ j ∈ Finset.range i, taylor (-((j : K) + 1)) s) = ∏ j ∈ Finset.range i, taylor (-(j : K)) s := by
  induction i with
  | zero => simp
  | succ i ih =>
    rw [Finset.prod_range_succ, Finset.prod_range_succ, taylor_mul, ih, taylor_taylor]
    congr 2; ring_nf

/-- The fraction `r/s` is `p1(k+1)/p1(k) p2(k)/p3(k)`. -/
structure Inv (r s : K[X]) (st : K[X] × K[X] × K[X]) : Prop where
  p1 : st.1 ≠ 0
  p2 : st.2.1 ≠ 0
  p3 : st.2.2 ≠ 0
  ratio : r * st.1 * st.2.2 = s * taylor 1 st.1 * st.2.1

theorem reduce_inv (hO : OpsOk O) {r s0 : K[X]} {st} (h : Inv r s0 st) (i : ℕ) : Inv r s0 (reduce O st i) := by
  obtain ⟨c, a, b⟩ := st
  obtain ⟨hc, ha, hb, hr⟩ := h
  simp only at ha hb hc hr
  have hbt : taylor (i : K) b ≠ 0 := taylor_ne hb
  set s := O.gcd a (taylor (i : K) b) with hs
  obtain ⟨a', ha'⟩ : s ∣ a := hO.left _ _ ha
  obtain ⟨bt, hbt'⟩ : s ∣ taylor (i : K) b := hO.right _ _ ha
  have hs0 : s ≠ 0 := by rintro h0; rw [h0, zero_mul] at ha'; exact ha ha'
  have hst0 : taylor (-(i : K)) s ≠ 0 := taylor_ne hs0
  have hb' : b = taylor (-(i : K)) s * taylor (-(i : K)) bt := by
    rw [← taylor_mul, ← hbt', taylor_cancel]
  have e1 : a / s = a' := by rw [ha']; exact mul_div_cancel_left₀ _ hs0
  have e2 : b / taylor (-(i : K)) s = taylor (-(i : K)) bt := by
    conv_lhs => rw [hb']
    exact mul_div_cancel_left₀ _ hst0
  have hred : reduce O (c, a, b) i = (c * ∏ j ∈ Finset.range i, taylor (-((j : K) + 1)) s, a', taylor (-(i : K)) bt) := by
    unfold reduce
    dsimp only
    rw [← hs, e1, e2, foldl_taylor]
  rw [hred]
  have ha'0 : a' ≠ 0 := by rintro rfl; rw [mul_zero] at ha'; exact ha ha'
  have hbt0 : bt ≠ 0 := by rintro rfl; rw [mul_zero] at hbt'; exact hbt hbt'
  have hP0 : ∏ j ∈ Finset.range i, taylor (-((j : K) + 1)) s ≠ 0 := Finset.prod_ne_zero_iff.mpr fun j _ => taylor_ne hs0
  refine ⟨mul_ne_zero hc hP0, ha'0, taylor_ne hbt0, ?_⟩
  dsimp only
  rw [taylor_mul, taylor_prod_range]
  have key : s * ∏ j ∈ Finset.range i, taylor (-((j : K) + 1)) s = taylor (-(i : K)) s * ∏ j ∈ Finset.range i, taylor (-(j : K)) s := by
    have h1 := Finset.prod_range_succ (fun j : ℕ => taylor (-(j : K)) s) i
    have h2 := Finset.prod_range_succ' (fun j : ℕ => taylor (-(j : K)) s) i
    rw [h1] at h2
    push_cast at h2
    rw [show taylor (-(0 : K)) s = s by simp] at h2
    rw [mul_comm s, ← h2, mul_comm]
  apply mul_left_cancel₀ (mul_ne_zero hs0 hst0)
  rw [ha', hb'] at hr
  linear_combination (s * ∏ j ∈ Finset.range i, taylor (-((j : K) + 1)) s) * hr + (s0 * taylor 1 c * s * a') * key

/-- C49: step two rewrites the ratio `r/s` as `p1(k+1)/p1(k) p2(k)/p3(k)`. -/
theorem C49_step_two (hO : OpsOk O) {r s : K[X]} (hr : r ≠ 0) (hs : s ≠ 0) {p1 p2 p3 : K[X]} (h : stepTwo O r s = (p1, p2, p3)) :
    p1 ≠ 0 ∧ p2 ≠ 0 ∧ p3 ≠ 0 ∧ r * p1 * p3 = s * taylor 1 p1 * p2 := by
  obtain ⟨n0, n1, n2⟩ := hO.numDen r s hr hs
  have init : Inv r s (1, (O.numDen r s).1, (O.numDen r s).2) := by
    refine ⟨one_ne_zero, n0, n1, ?_⟩
    simp only [mul_one, taylor_one, map_one]
    linear_combination -n2
  have all : ∀ (l : List ℕ) st, Inv r s st → Inv r s (l.foldl (fun st (h : ℕ) =>
      if 0 < (O.gcd (O.numDen r s).1 (O.numDen r s).2).natDegree then reduce O st (h + 1) else st) st) := by
    intro l
    induction l with
    | nil => intro st h; exact h
    | cons i l ih =>
      intro st h
      rw [List.foldl_cons]
      apply ih
      split
      · exact reduce_inv hO h _
      · exact h
  have := all (List.range 100) _ init
  unfold stepTwo at h
  dsimp only at h
  rw [h] at this
  exact ⟨this.p1, this.p2, this.p3, this.ratio⟩

/-! ### Step three -/

/-- The equations are linear in the first `N` unknowns `u` and the first `J` unknowns `a`. -/
def Linear (N J : ℕ) (F : (ℕ → K) → (ℕ → K) → ℕ → K) : Prop :=
  ∃ (A B : ℕ → ℕ → K) (c : ℕ → K), ∀ u a i, F u a i = ∑ j ∈ Finset.range N, A i j * u j + ∑ j ∈ Finset.range J, B i j * a j + c i

variable (O) in
/-- The specification of `lsolve`: solutions are solutions. -/
def LsolveOk : Prop := ∀ N J F sol, Linear N J F → O.lsolve N F = some sol → ∀ i < N, F sol.1 sol.2 i = 0

/-- `p` is linear in the coefficients of the recurrence. -/
def LinearP (order : ℕ) (p : (ℕ → K) → K[X]) : Prop := ∀ a, p a = ∑ j ∈ Finset.range (order + 1), C (a j) * p (Pi.single j 1)

theorem p0_linear (s1 s2 : ℕ → K[X]) (order : ℕ) (q : K[X]) : LinearP order fun a => p0 s1 s2 order a * q := by
  intro a
  dsimp only
  rw [p0_eq, Finset.sum_mul]
  refine Finset.sum_congr rfl fun j hj => ?_
  rw [p0_eq, Finset.sum_eq_single j]
  · rw [Pi.single_eq_same, map_one]; ring
  · intro i _ hi
    rw [Pi.single_eq_of_ne hi]; simp
  · intro h; exact absurd hj h

theorem degP_le {order : ℕ} {p : (ℕ → K) → K[X]} (hp : LinearP order p) (a : ℕ → K) : (p a).natDegree ≤ degP order p := by
  rw [hp a]
  refine natDegree_sum_le_of_forall_le _ _ fun j hj => ?_
  refine (natDegree_C_mul_le _ _).trans ?_
  exact Finset.le_sup (f := fun j => (p (Pi.single j 1)).natDegree) hj

theorem rr_linear {order : ℕ} {p : (ℕ → K) → K[X]} (hp : LinearP order p) (p2 p3 : K[X]) (n N : ℕ) (h : n ≤ N) :
    Linear N (order + 1) fun u a i => (rr p2 p3 (p a) (generic n u)).coeff i := by
  refine ⟨fun i j => if j < n then (p2 * taylor 1 (X ^ j) - taylor (-1) p3 * X ^ j).coeff i else 0,
    fun i j => - (p (Pi.single j 1)).coeff i, fun _ => 0, fun u a i => ?_⟩
  show (rr p2 p3 (p a) (generic n u)).coeff i = _
  have e : rr p2 p3 (p a) (generic n u)
      = ∑ j ∈ Finset.range n, C (u j) * (p2 * taylor 1 (X ^ j) - taylor (-1) p3 * X ^ j) - p a := by
    unfold rr generic
    rw [map_sum, Finset.mul_sum, Finset.mul_sum, ← Finset.sum_sub_distrib]
    congr 1
    refine Finset.sum_congr rfl fun j _ => ?_
    rw [taylor_mul, taylor_C]; ring
  rw [e, coeff_sub, finsetSum_coeff, add_zero, sub_eq_add_neg]
  congr 1
  · rw [← Finset.sum_subset (Finset.range_subset_range.mpr h)]
    · refine Finset.sum_congr rfl fun j hj => ?_
      simp only [coeff_C_mul, if_pos (Finset.mem_range.mp hj)]; ring
    · intro j _ hj
      have hj' : ¬ j < n := by simpa using hj
      simp only [if_neg hj', zero_mul]
  · rw [hp a, finsetSum_coeff, ← Finset.sum_neg_distrib]
    refine Finset.sum_congr rfl fun j _ => ?_
    rw [coeff_C_mul]; ring

theorem generic_natDegree (n : ℕ) (u : ℕ → K) : (generic (n + 1) u).natDegree ≤ n := by
  unfold generic
  refine natDegree_sum_le_of_forall_le _ _ fun i hi => ?_
  have := Finset.mem_range.mp hi
  exact (natDegree_C_mul_X_pow_le _ _).trans (by omega)

theorem rr_natDegree (a b c x : K[X]) : (rr a b c x).natDegree ≤ max (x.natDegree + max a.natDegree b.natDegree) c.natDegree := by
  unfold rr
  refine (natDegree_sub_le _ _).trans (max_le_max ?_ le_rfl)
  refine (natDegree_sub_le _ _).trans (max_le ?_ ?_)
  · refine natDegree_mul_le.trans ?_
    rw [natDegree_taylor]; have := le_max_left a.natDegree b.natDegree; omega
  · refine natDegree_mul_le.trans ?_
    rw [natDegree_taylor]; have := le_max_right a.natDegree b.natDegree; omega

theorem degX_bound {p2 p3 : K[X]} {dp d : ℕ} (h : degX p2 p3 dp = some d) : dp ≤ d + max p2.natDegree p3.natDegree := by
  unfold degX at h
  split at h
  · split at h
    · cases h; omega
    · split at h
      · cases h; omega
      · cases h
  · split at h
    · cases h; omega
    · cases h

/-- A solution found by step three solves the equation, and is not zero. -/
theorem stepThree_sound (hL : LsolveOk O) {order : ℕ} {p2 p3 : K[X]} {p : (ℕ → K) → K[X]} (hp : LinearP order p) {y : K[X] × (ℕ → K)}
    (h : stepThree O order p2 p3 p = some y) : y.1 ≠ 0 ∧ p2 * taylor 1 y.1 - taylor (-1) p3 * y.1 = p y.2 := by
  unfold stepThree at h
  obtain ⟨d, hd, h⟩ := Option.bind_eq_some_iff.mp h
  obtain ⟨sol, hs, h⟩ := Option.bind_eq_some_iff.mp h
  split at h
  · cases h
  rename_i hne
  cases h
  refine ⟨hne, ?_⟩
  have h1 := hL _ _ _ _ (rr_linear hp p2 p3 (d + 1) _ (by omega)) hs
  have hr : rr p2 p3 (p sol.2) (generic (d + 1) sol.1) = 0 := by
    ext i
    rw [coeff_zero]
    by_cases hi : i < max (d + 1 + max p2.natDegree p3.natDegree) (degP order p) + (order + 1)
    · exact h1 i hi
    · apply coeff_eq_zero_of_natDegree_lt
      have e1 := rr_natDegree p2 p3 (p sol.2) (generic (d + 1) sol.1)
      have e2 := generic_natDegree d sol.1
      have e3 := degX_bound hd
      have e4 := degP_le hp sol.2
      omega
  unfold rr at hr
  exact sub_eq_zero.mp hr

/-! ### The recurrence -/

/-- The certificate. -/
def cert (F : ℤ → ℤ → K) (m : ℤ) (s2 : ℕ → K[X]) (order : ℕ) (p1 p3 b : K[X]) (k : ℤ) : K :=
  p3.eval ((k - 1 : ℤ) : K) * b.eval (k : K) * F m k / (p1.eval (k : K) * ∏ i ∈ Finset.range order, (s2 (i + 1)).eval (k : K))

/-- No denominator vanishes at `k`. -/
def Regular (s2 : ℕ → K[X]) (r : K[X] × K[X]) (p1 : K[X]) (order : ℕ) (k : ℤ) : Prop :=
  (∀ i, 1 ≤ i → i ≤ order → (s2 i).eval (k : K) ≠ 0) ∧ r.2.eval (k : K) ≠ 0 ∧ p1.eval (k : K) ≠ 0

/-- C76: the combination found is the difference of consecutive values of the certificate. -/
theorem C76_telescope (hO : OpsOk O) (hL : LsolveOk O) {F : ℤ → ℤ → K} {m : ℤ} {s1 s2 : ℕ → K[X]} {r : K[X] × K[X]} {order : ℕ}
    (hF : Ratios F m s1 s2 r order) (hr1 : r.1 ≠ 0) {a : ℕ → K} {p1 p2 p3 b : K[X]}
    (h : fixedOrder O s1 s2 r order = some (a, (p1, p2, p3), b)) (k : ℤ) (hk : Regular s2 r p1 order k) (hk' : Regular s2 r p1 order (k + 1)) :
    combination F m order a k = cert F m s2 order p1 p3 b (k + 1) - cert F m s2 order p1 p3 b k := by
  unfold fixedOrder at h
  dsimp only at h
  obtain ⟨y, h3, h4⟩ := Option.map_eq_some_iff.mp h
  rcases h2 : stepTwo O (stepOne s2 r order).1 (stepOne s2 r order).2 with ⟨q1, q2, q3⟩
  rw [h2] at h3 h4
  simp only [Prod.mk.injEq] at h3 h4
  obtain ⟨rfl, ⟨rfl, rfl, rfl⟩, rfl⟩ := h4
  obtain ⟨hs, hr2, hp1⟩ := hk
  obtain ⟨hs', -, hp1'⟩ := hk'
  have hPi : ∏ i ∈ Finset.range order, (s2 (i + 1)).eval (k : K) ≠ 0 :=
    Finset.prod_ne_zero_iff.mpr fun i hi => hs _ (by omega) (by have := Finset.mem_range.mp hi; omega)
  have hPi' : ∏ i ∈ Finset.range order, (s2 (i + 1)).eval ((k + 1 : ℤ) : K) ≠ 0 :=
    Finset.prod_ne_zero_iff.mpr fun i hi => hs' _ (by omega) (by have := Finset.mem_range.mp hi; omega)
  have hP0 : ∏ i ∈ Finset.range order, s2 (i + 1) ≠ 0 := by
    intro h0
    apply hPi
    rw [← eval_prod, h0, eval_zero]
  have hr2' : r.2 ≠ 0 := by intro h0; apply hr2; rw [h0, eval_zero]
  have e1 : (stepOne s2 r order).1 = r.1 * ∏ i ∈ Finset.range order, s2 (i + 1) := by unfold stepOne; rw [prods_eq]
  have e2 : (stepOne s2 r order).2 = r.2 * taylor 1 (∏ i ∈ Finset.range order, s2 (i + 1)) := by unfold stepOne; rw [prods_eq]
  obtain ⟨-, -, -, hq⟩ := C49_step_two hO (by rw [e1]; exact mul_ne_zero hr1 hP0)
    (by rw [e2]; exact mul_ne_zero hr2' (taylor_ne hP0)) h2
  obtain ⟨-, hb⟩ := stepThree_sound hL (p0_linear s1 s2 order q1) h3
  have hb' := congrArg (eval (k : K)) hb
  have hq' := congrArg (eval (k : K)) hq
  rw [e1, e2] at hq'
  simp only [eval_mul, eval_sub, taylor_eval, eval_prod] at hb' hq'
  have c0 := combination_p0 hF y.2 k
  have hk0 := hF.inK k
  unfold cert
  have k1 : ((k : K) + 1) = ((k + 1 : ℤ) : K) := by push_cast; ring
  have k2 : ((k : K) + -1) = ((k - 1 : ℤ) : K) := by push_cast; ring
  rw [k1] at hq'
  rw [k1, k2] at hb'
  rw [show k + 1 - 1 = k by ring]
  generalize ∏ i ∈ Finset.range order, (s2 (i + 1)).eval (k : K) = Pi at *
  generalize ∏ i ∈ Finset.range order, (s2 (i + 1)).eval ((k + 1 : ℤ) : K) = Pi' at *
  -- the quotient of the two terms
  have T : q3.eval (k : K) * F m (k + 1) / (q1.eval ((k + 1 : ℤ) : K) * Pi') = q2.eval (k : K) * F m k / (q1.eval (k : K) * Pi) := by
    rw [div_eq_div_iff (mul_ne_zero hp1' hPi') (mul_ne_zero hp1 hPi)]
    apply mul_left_cancel₀ hr2
    linear_combination (q3.eval (k : K) * q1.eval (k : K) * Pi) * hk0 + F m k * hq'
  have G : q3.eval (k : K) * y.1.eval ((k + 1 : ℤ) : K) * F m (k + 1) / (q1.eval ((k + 1 : ℤ) : K) * Pi')
      = y.1.eval ((k + 1 : ℤ) : K) * (q2.eval (k : K) * F m k / (q1.eval (k : K) * Pi)) := by
    rw [← T]; ring
  rw [G, eq_comm, mul_div_assoc', ← sub_div, div_eq_iff (mul_ne_zero hp1 hPi)]
  linear_combination F m k * hb' - q1.eval (k : K) * c0

/-- C76: the sums over a range without zeros of the denominators satisfy the recurrence up to the boundary terms. -/
theorem C76_sum (hO : OpsOk O) (hL : LsolveOk O) {F : ℤ → ℤ → K} {m : ℤ} {s1 s2 : ℕ → K[X]} {r : K[X] × K[X]} {order : ℕ}
    (hF : Ratios F m s1 s2 r order) (hr1 : r.1 ≠ 0) {a : ℕ → K} {p1 p2 p3 b : K[X]}
    (h : fixedOrder O s1 s2 r order = some (a, (p1, p2, p3), b)) (lo : ℤ) (n : ℕ)
    (hk : ∀ k, lo ≤ k → k ≤ lo + n → Regular s2 r p1 order k) :
    ∑ j ∈ Finset.range (order + 1), a j * ∑ k ∈ Finset.Icc lo (lo + n - 1), F (m + j) k
      = cert F m s2 order p1 p3 b (lo + n) - cert F m s2 order p1 p3 b lo := by
  have sw : ∑ j ∈ Finset.range (order + 1), a j * ∑ k ∈ Finset.Icc lo (lo + n - 1), F (m + j) k
      = ∑ k ∈ Finset.Icc lo (lo + n - 1), combination F m order a k := by
    unfold combination
    rw [Finset.sum_comm]
    exact Finset.sum_congr rfl fun j _ => Finset.mul_sum _ _ _
  rw [sw]
  clear sw
  induction n with
  | zero => simp
  | succ n ih =>
    have e : Finset.Icc lo (lo + (n + 1 : ℕ) - 1) = insert (lo + n) (Finset.Icc lo (lo + n - 1)) := by
      ext k; simp only [Finset.mem_Icc, Finset.mem_insert]; push_cast; omega
    rw [e, Finset.sum_insert (by simp), ih fun k h1 h2 => hk k h1 (by push_cast; omega),
      C76_telescope hO hL hF hr1 h (lo + n) (hk _ (by omega) (by push_cast; omega)) (hk _ (by omega) (by push_cast; omega))]
    push_cast
    rw [← add_assoc]; ring

theorem recurrence_eq (order : ℕ) (a x : ℕ → K) : recurrence order a x = - (∑ i ∈ Finset.range order, a (i + 1) * x (i + 1)) / a 0 := by
  unfold recurrence
  congr 2
  induction order with
  | zero => simp
  | succ n ih => rw [List.range_succ, List.foldl_append, ih, Finset.sum_range_succ]; simp

/-- C76: let the terms be polynomial multiples of a function `T` that continues `F(m, k)/(p1(k) s2(1, k) ... s2(order, k))` to all
`k` of the range.  If it vanishes at both ends, the sums satisfy the recurrence that is built. -/
theorem C76_recurrence (hL : LsolveOk O) {F : ℤ → ℤ → K} {m : ℤ} {s1 s2 : ℕ → K[X]} {r : K[X] × K[X]} {order : ℕ}
    {a : ℕ → K} {p1 p2 p3 b : K[X]}
    (h : fixedOrder O s1 s2 r order = some (a, (p1, p2, p3), b)) (ha : a 0 ≠ 0) (T : ℤ → K) (lo : ℤ) (n : ℕ)
    (hT : ∀ j ≤ order, ∀ k, lo ≤ k → k < lo + n → F (m + j) k = (∏ i ∈ Finset.range j, (s1 (j - i)).eval (k : K))
      * (∏ i ∈ Finset.range (order - j), (s2 (j + 1 + i)).eval (k : K)) * p1.eval (k : K) * T k)
    (hT2 : ∀ k, lo ≤ k → k < lo + n → p3.eval (k : K) * T (k + 1) = p2.eval (k : K) * T k) (h1 : T lo = 0) (h2 : T (lo + n) = 0) :
    ∑ k ∈ Finset.Icc lo (lo + n - 1), F m k = recurrence order a fun i => ∑ k ∈ Finset.Icc lo (lo + n - 1), F (m + i) k := by
  unfold fixedOrder at h
  dsimp only at h
  obtain ⟨y, h3, h4⟩ := Option.map_eq_some_iff.mp h
  rcases h5 : stepTwo O (stepOne s2 r order).1 (stepOne s2 r order).2 with ⟨q1, q2, q3⟩
  rw [h5] at h3 h4
  simp only [Prod.mk.injEq] at h3 h4
  obtain ⟨rfl, ⟨rfl, rfl, rfl⟩, rfl⟩ := h4
  obtain ⟨-, hb⟩ := stepThree_sound hL (p0_linear s1 s2 order q1) h3
  have tele : ∀ n' : ℕ, n' ≤ n → ∑ k ∈ Finset.Icc lo (lo + n' - 1), combination F m order y.2 k
      = q3.eval ((lo + n' - 1 : ℤ) : K) * y.1.eval ((lo + n' : ℤ) : K) * T (lo + n')
        - q3.eval ((lo - 1 : ℤ) : K) * y.1.eval (lo : K) * T lo := by
    intro n'
    induction n' with
    | zero => intro _; simp
    | succ n' ih =>
      intro hn
      have e : Finset.Icc lo (lo + (n' + 1 : ℕ) - 1) = insert (lo + n') (Finset.Icc lo (lo + n' - 1)) := by
        ext k; simp only [Finset.mem_Icc, Finset.mem_insert]; push_cast; omega
      rw [e, Finset.sum_insert (by simp), ih (by omega)]
      generalize hk : lo + (n' : ℤ) = k
      have c : combination F m order y.2 k = (p0 s1 s2 order y.2 * q1).eval (k : K) * T k := by
        unfold combination
        rw [p0_eq, eval_mul, eval_finsetSum, Finset.sum_mul, Finset.sum_mul]
        refine Finset.sum_congr rfl fun j hj => ?_
        rw [hT j (by have := Finset.mem_range.mp hj; omega) k (by omega) (by omega)]
        simp only [eval_mul, eval_C, eval_prod]; ring
      have t := hT2 k (by omega) (by omega)
      rw [c, ← hb]
      simp only [eval_mul, eval_sub, taylor_eval]
      have k1 : ((k : K) + 1) = ((k + 1 : ℤ) : K) := by push_cast; ring
      have k2 : ((k : K) + -1) = ((k - 1 : ℤ) : K) := by push_cast; ring
      have k3 : lo + ((n' + 1 : ℕ) : ℤ) = k + 1 := by push_cast; omega
      rw [k1, k2, k3, show k + 1 - 1 = k by ring]
      linear_combination -(y.1.eval ((k + 1 : ℤ) : K)) * t
  have e := tele n le_rfl
  rw [h1, h2] at e
  simp only [mul_zero, sub_zero] at e
  have sw : ∑ j ∈ Finset.range (order + 1), y.2 j * ∑ k ∈ Finset.Icc lo (lo + n - 1), F (m + j) k
      = ∑ k ∈ Finset.Icc lo (lo + n - 1), combination F m order y.2 k := by
    unfold combination
    rw [Finset.sum_comm]
    exact Finset.sum_congr rfl fun j _ => Finset.mul_sum _ _ _
  rw [← sw, Finset.sum_range_succ'] at e
  simp only [Nat.cast_zero, add_zero] at e
  rw [recurrence_eq, eq_div_iff ha]
  linear_combination e

/-! ### The solution -/

/-- C77, partial: if the support of the first terms is in `[0, 10]`, a solution of the recurrence with the initial values that the
program computes is the sum, at every index.  Missing: terms with a larger support, see `C77_support_refuted`. -/
theorem C77_solution_partial {F : ℤ → ℤ → K} {order : ℕ} (ho : 1 ≤ order) (S : ℕ → K) (a : ℕ → ℕ → K)
    (ha : ∀ n, a n order ≠ 0) (ha0 : ∀ n, a n 0 ≠ 0)
    (hS : ∀ n, S n = recurrence order (a n) fun i => S (n + i)) (lo hi : ℕ → ℤ)
    (hsum : ∀ n, S n = ∑ k ∈ Finset.Icc (lo n) (hi n), F n k)
    (hsupp : ∀ n < order, ∀ k, F n k ≠ 0 → lo n ≤ k ∧ k ≤ hi n ∧ 0 ≤ k ∧ k ≤ 10)
    (y : ℕ → K) (hy : ∀ n, y n = recurrence order (a n) fun i => y (n + i)) (hy0 : ∀ n < order, y n = initialValue F n) (n : ℕ) :
    y n = ∑ k ∈ Finset.Icc (lo n) (hi n), F n k := by
  rw [← hsum]
  induction n using Nat.strong_induction_on with
  | _ n ih =>
    by_cases hn : n < order
    · rw [hy0 n hn, hsum, initialValue]
      have h1 : ∀ s : Finset ℤ, (∀ k, F n k ≠ 0 → k ∈ s) → ∑ k ∈ s, F n k = ∑ᶠ k, F n k := by
        intro s hs
        exact (finsum_eq_sum_of_support_subset _ (fun k hk => hs k hk)).symm
      rw [h1 _ fun k hk => by have := hsupp n hn k hk; simp; omega, h1 _ fun k hk => by have := hsupp n hn k hk; simp; omega]
    · obtain ⟨o, rfl⟩ : ∃ o, order = o + 1 := ⟨order - 1, by omega⟩
      obtain ⟨d, rfl⟩ : ∃ d, n = d + (o + 1) := ⟨n - (o + 1), by omega⟩
      have e1 := hS d
      have e2 := hy d
      rw [recurrence_eq, Finset.sum_range_succ, eq_div_iff (ha0 d)] at e1 e2
      have e3 : ∑ i ∈ Finset.range o, a d (i + 1) * y (d + (i + 1)) = ∑ i ∈ Finset.range o, a d (i + 1) * S (d + (i + 1)) := by
        refine Finset.sum_congr rfl fun i hi => ?_
        have := Finset.mem_range.mp hi
        rw [ih (d + (i + 1)) (by omega)]
      rw [ih d (by omega), e3] at e2
      apply mul_left_cancel₀ (ha d)
      linear_combination e2 - e1

/-- The binomial coefficients `binom(m + d, k)`. -/
def binomF (d : ℕ) (m k : ℤ) : ℚ := if 0 ≤ m + d ∧ 0 ≤ k then ((m + d).toNat.choose k.toNat : ℚ) else 0

theorem binomF_nat (d m k : ℕ) : binomF d m k = ((m + d).choose k : ℚ) := by
  unfold binomF
  rw [if_pos (by omega)]
  congr 2

theorem binomF_neg (d : ℕ) (m k : ℤ) (hk : k < 0) : binomF d m k = 0 := by
  unfold binomF
  rw [if_neg (by omega)]

theorem binomF_big (d m : ℕ) (k : ℤ) (hk : (m + d : ℤ) < k) : binomF d m k = 0 := by
  obtain ⟨j, rfl⟩ := Int.eq_ofNat_of_zero_le (show 0 ≤ k by omega)
  rw [binomF_nat, Nat.choose_eq_zero_of_lt (by omega)]; rfl

theorem Icc_cast (n : ℕ) (f : ℤ → ℚ) : ∑ k ∈ Finset.Icc (0 : ℤ) n, f k = ∑ k ∈ Finset.range (n + 1), f k := by
  induction n with
  | zero => simp
  | succ n ih =>
    have e : Finset.Icc (0 : ℤ) ((n + 1 : ℕ) : ℤ) = insert ((n + 1 : ℕ) : ℤ) (Finset.Icc (0 : ℤ) n) := by
      ext k; simp only [Finset.mem_Icc, Finset.mem_insert]; push_cast; omega
    rw [e, Finset.sum_insert (by simp), ih, Finset.sum_range_succ _ (n + 1), add_comm]

theorem binomF_sum (d m : ℕ) : ∑ k ∈ Finset.Icc (0 : ℤ) ((m + d : ℕ) : ℤ), binomF d m k = 2 ^ (m + d) := by
  rw [Icc_cast]
  simp only [binomF_nat]
  exact_mod_cast Nat.sum_range_choose (m + d)

/-- The hypotheses hold for `binom(n + 10, k)`, with the recurrence `x(n) = x(n+1)/2`. -/
theorem C77_nonvacuous (y : ℕ → ℚ) (hy : ∀ n, y n = recurrence 1 (fun i => if i = 0 then 2 else -1) fun i => y (n + i))
    (hy0 : y 0 = initialValue (binomF 10) 0) (n : ℕ) : y n = 2 ^ (n + 10) := by
  have := C77_solution_partial (F := binomF 10) (order := 1) le_rfl (fun n => 2 ^ (n + 10)) (fun _ i => if i = 0 then 2 else -1) (by simp)
    (by simp) (by intro n; rw [recurrence_eq]; simp; ring) (fun _ => 0) (fun n => ((n + 10 : ℕ) : ℤ))
    (fun n => (binomF_sum 10 n).symm) ?_ y hy (by intro n hn; rw [show n = 0 by omega]; exact hy0) n
  · rw [this, binomF_sum]
  · intro n hn k hk
    have h0 : n = 0 := by omega
    subst h0
    have h1 : 0 ≤ k := by by_contra h; exact hk (binomF_neg _ _ _ (by omega))
    have h2 : k ≤ 10 := by by_contra h; exact hk (binomF_big 10 0 k (by push_cast; omega))
    push_cast
    omega

/-- C77, refuted: only the terms with `0 ≤ k ≤ 10` enter into the initial values.  The sum of `binom(n + 20, k)` is `2^(n + 20)`,
which satisfies the recurrence `x(n) = x(n+1)/2`; the solution of this recurrence with the initial value that the program computes
differs from it at every index. -/
theorem C77_support_refuted :
    (∀ n : ℕ, ∑ k ∈ Finset.Icc (0 : ℤ) ((n + 20 : ℕ) : ℤ), binomF 20 n k = 2 ^ (n + 20)) ∧
    (∀ n : ℕ, (2 : ℚ) ^ (n + 20) = recurrence 1 (fun i => if i = 0 then 2 else -1) fun i => 2 ^ (n + i + 20)) ∧
    ∀ y : ℕ → ℚ, (∀ n, y n = recurrence 1 (fun i => if i = 0 then 2 else -1) fun i => y (n + i)) →
      y 0 = initialValue (binomF 20) 0 → ∀ n, y n ≠ 2 ^ (n + 20) := by
  refine ⟨fun n => binomF_sum 20 n, fun n => by rw [recurrence_eq]; simp; ring, fun y hy hy0 n => ?_⟩
  have h0 : y 0 = 616666 := by
    rw [hy0, initialValue, show (10 : ℤ) = ((10 : ℕ) : ℤ) from rfl, Icc_cast]
    have : ∀ k : ℕ, binomF 20 ((0 : ℕ) : ℤ) k = ((0 + 20).choose k : ℚ) := fun k => binomF_nat 20 0 k
    simp only [this, Finset.sum_range_succ, Finset.sum_range_zero]
    norm_num [Nat.choose]
  have h1 : ∀ n, y n = 616666 * 2 ^ n := by
    intro n
    induction n with
    | zero => simpa using h0
    | succ n ih =>
      have := hy n
      rw [recurrence_eq, ih] at this
      simp at this
      rw [pow_succ]
      linarith
  rw [h1, pow_add]
  intro h
  have hp : (0 : ℚ) < 2 ^ n := by positivity
  nlinarith

/-! ### An example: `binom(3, k)` and order one -/

/-- Operations that satisfy the specifications and solve the example. -/
def exOps : Ops ℚ where
  gcd _ _ := 1
  numDen p q := if p = (C 3 - X) * (C 4 - X) ∧ q = (X + C 1) * (C 3 - X) then (C 4 - X, X + C 1) else (p, q)
  lsolve N F := if ∀ i < N, F (fun _ => 1) (fun i => if i = 0 then 2 else -1) i = 0 then
    some (fun _ => 1, fun i => if i = 0 then 2 else -1) else none

theorem C_sub_X_ne (c : ℚ) : (C c - X : ℚ[X]) ≠ 0 := by
  intro h
  have := congrArg (fun p => p.coeff 1) h
  simp at this

theorem exOps_ok : OpsOk exOps := by
  refine ⟨fun _ _ _ => one_dvd _, fun _ _ _ => one_dvd _, fun p q hp hq => ?_⟩
  simp only [exOps]
  split
  · rename_i h
    obtain ⟨rfl, rfl⟩ := h
    exact ⟨C_sub_X_ne 4, (monic_X_add_C 1).ne_zero, by ring⟩
  · exact ⟨hp, hq, rfl⟩

theorem exOps_lsolve : LsolveOk exOps := by
  intro N J F sol _ h
  simp only [exOps] at h
  split at h
  · rename_i hx; cases h; exact hx
  · cases h

theorem foldl_id {α β : Type} (l : List α) (b : β) : l.foldl (fun b _ => b) b = b := by
  induction l with
  | nil => rfl
  | cons _ _ ih => exact ih

theorem ex_two : stepTwo exOps (stepOne (fun _ => C 4 - X) (C 3 - X, X + C 1) 1).1 (stepOne (fun _ => C 4 - X) (C 3 - X, X + C 1) 1).2
    = (1, C 4 - X, X + C 1) := by
  have e : stepOne (fun _ => C 4 - X) (C 3 - X, X + C 1) 1 = (((C 3 - X) * (C 4 - X) : ℚ[X]), (X + C 1) * (C 3 - X)) := by
    unfold stepOne
    rw [prods_eq]
    have : taylor 1 (C 4 - X : ℚ[X]) = C 3 - X := by
      rw [map_sub, taylor_C, taylor_X, sub_add_eq_sub_sub, sub_right_comm, ← C_sub]; norm_num
    simp only [Finset.prod_range_one, this]
  rw [e]
  unfold stepTwo
  have hn : exOps.numDen ((C 3 - X) * (C 4 - X)) ((X + C 1) * (C 3 - X)) = (C 4 - X, X + C 1) := by
    simp [exOps]
  have hg : ∀ p q, exOps.gcd p q = 1 := fun _ _ => rfl
  simp only [hn, hg, natDegree_one, lt_irrefl, if_false]
  exact foldl_id _ _

theorem ex_p0 (a : ℕ → ℚ) : p0 (fun _ => C 4) (fun _ => C 4 - X) 1 a = C (a 0) * (C 4 - X) + C (a 1) * C 4 := by
  rw [p0_eq]; simp [Finset.sum_range_succ]

/-- The algorithm finds the recurrence `2 x(3) - x(4) = 0` for the sums of the binomial coefficients. -/
theorem ex_fixed : fixedOrder exOps (fun _ => C 4) (fun _ => C 4 - X) (C 3 - X, X + C 1) 1
    = some (fun i => if i = 0 then 2 else -1, (1, C 4 - X, X + C 1), C 1) := by
  unfold fixedOrder
  dsimp only
  rw [ex_two]
  have d1 : (C 4 - X : ℚ[X]).natDegree = 1 := by
    rw [natDegree_sub_eq_right_of_natDegree_lt (by simp), natDegree_X]
  have d2 : (X + C 1 : ℚ[X]).natDegree = 1 := natDegree_X_add_C 1
  have l1 : (C 4 - X : ℚ[X]).leadingCoeff = -1 := by
    rw [leadingCoeff, d1]; simp
  have l2 : (X + C 1 : ℚ[X]).leadingCoeff = 1 := leadingCoeff_X_add_C 1
  have dp : degP 1 (fun a => p0 (fun _ => C 4) (fun _ => C 4 - X) 1 a * (1 : ℚ[X])) = 1 := by
    unfold degP
    simp only [mul_one, ex_p0]
    have h0 : (C ((Pi.single 0 1 : ℕ → ℚ) 0) * (C 4 - X) + C ((Pi.single 0 1 : ℕ → ℚ) 1) * C 4).natDegree = 1 := by
      simpa using d1
    have h1 : (C ((Pi.single 1 1 : ℕ → ℚ) 0) * (C 4 - X) + C ((Pi.single 1 1 : ℕ → ℚ) 1) * C 4).natDegree = 0 := by
      simp
    rw [show Finset.range (1 + 1) = {0, 1} from rfl, Finset.sup_insert, Finset.sup_singleton, h0, h1]
    rfl
  have hd : degX (C 4 - X : ℚ[X]) (X + C 1) 1 = some 0 := by
    unfold degX
    rw [d1, d2, l1, l2]
    norm_num
  have hgen : generic (0 + 1) (fun _ => (1 : ℚ)) = C 1 := by simp [generic]
  have hst : stepThree exOps 1 (C 4 - X : ℚ[X]) (X + C 1) (fun a => p0 (fun _ => C 4) (fun _ => C 4 - X) 1 a * (1 : ℚ[X]))
      = some (C 1, fun i => if i = 0 then 2 else -1) := by
    unfold stepThree
    rw [dp, hd]
    simp only [Option.bind_some, d1, d2]
    have hsol : ∀ N, exOps.lsolve N (fun u a i => (rr (C 4 - X : ℚ[X]) (X + C 1)
        (p0 (fun _ => C 4) (fun _ => C 4 - X) 1 a * (1 : ℚ[X])) (generic (0 + 1) u)).coeff i)
        = some (fun _ => 1, fun i => if i = 0 then 2 else -1) := by
      intro N
      simp only [exOps]
      rw [if_pos]
      intro i _
      have : rr (C 4 - X : ℚ[X]) (X + C 1) (p0 (fun _ => C 4) (fun _ => C 4 - X) 1 (fun i => if i = 0 then 2 else -1) * (1 : ℚ[X]))
          (generic (0 + 1) fun _ => 1) = 0 := by
        rw [hgen, ex_p0]
        unfold rr
        simp only [if_true, one_ne_zero, if_false, taylor_C, map_add, taylor_X, mul_one]
        have c2 : (C 2 : ℚ[X]) = 2 := rfl
        have c4 : (C 4 : ℚ[X]) = 4 := rfl
        simp only [map_neg, map_one, c2, c4]
        ring
      rw [this, coeff_zero]
    rw [hsol]
    simp only [Option.bind_some, hgen]
    rw [if_neg (by simp)]
  rw [hst]
  rfl

/-- The hypotheses of `C76_recurrence` hold for the binomial coefficients, and the conclusion is `x(3) = x(4)/2`. -/
theorem C76_nonvacuous : ∑ k ∈ Finset.Icc (-1 : ℤ) 4, binomF 0 3 k
    = recurrence 1 (fun i => if i = 0 then 2 else -1) fun i => ∑ k ∈ Finset.Icc (-1 : ℤ) 4, binomF 0 (3 + i) k := by
  have hv : ∀ k : ℤ, -1 ≤ k → k < 5 → k = -1 ∨ k = 0 ∨ k = 1 ∨ k = 2 ∨ k = 3 ∨ k = 4 := by intro k; omega
  refine C76_recurrence (m := 3) exOps_lsolve ex_fixed (by simp) (fun k => binomF 0 4 k / 4) (-1) 6 ?_ ?_ ?_ ?_
  · intro j hj k h1 h2
    have hj' : j = 0 ∨ j = 1 := by omega
    rcases hj' with rfl | rfl <;> rcases hv k h1 (by omega) with rfl | rfl | rfl | rfl | rfl | rfl <;>
      simp [binomF] <;> norm_num [Nat.choose]
  · intro k h1 h2
    rcases hv k h1 (by omega) with rfl | rfl | rfl | rfl | rfl | rfl <;>
      simp [binomF] <;> norm_num [Nat.choose]
  · simp [binomF]
  · simp [binomF]

/-- The hypothesis of `C49_step_one` and `C76_telescope` holds for the binomial coefficients. -/
theorem C49_nonvacuous : Ratios (binomF 0) 3 (fun _ => C 4) (fun _ => C 4 - X) (C 3 - X, X + C 1) 1 := by
  have hv : ∀ k : ℤ, k < -1 ∨ k = -1 ∨ k = 0 ∨ k = 1 ∨ k = 2 ∨ k = 3 ∨ k = 4 ∨ 4 < k := by intro k; omega
  refine ⟨fun i h1 h2 k => ?_, fun k => ?_⟩
  · have hi : i = 1 := by omega
    subst hi
    have e3 : (3 : ℤ) + ((1 : ℕ) : ℤ) = 4 := by norm_num
    rw [e3, show (4 : ℤ) - 1 = 3 by norm_num]
    rcases hv k with h | rfl | rfl | rfl | rfl | rfl | rfl | h
    · rw [binomF_neg _ _ _ (by omega), binomF_neg _ _ _ (by omega)]; simp
    any_goals simp [binomF] <;> norm_num [Nat.choose]
    rw [if_pos (by omega), if_pos (by omega), Nat.choose_eq_zero_of_lt (by omega), Nat.choose_eq_zero_of_lt (by omega)]; simp
  · rcases hv k with h | rfl | rfl | rfl | rfl | rfl | rfl | h
    · rw [binomF_neg _ _ _ (by omega), binomF_neg _ _ _ (by omega)]; simp
    any_goals simp [binomF] <;> norm_num [Nat.choose]
    rw [if_pos (by omega), if_pos (by omega), Nat.choose_eq_zero_of_lt (by omega), Nat.choose_eq_zero_of_lt (by omega)]; simp

end

end Purrs.Zeilberger
