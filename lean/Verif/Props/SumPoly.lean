import Verif.Model.SumPoly
import Verif.Props.Expr
import Mathlib.Algebra.BigOperators.Intervals
import Mathlib.Algebra.Polynomial.Div
import Mathlib.Algebra.Polynomial.Derivative
import Mathlib.RingTheory.Polynomial.Pochhammer
import Mathlib.Data.Nat.Choose.Sum

/-!
# C10, C11: closed forms of sums of polynomials times exponentials
-/

set_option linter.unusedSectionVars false

namespace Purrs

open Finset Polynomial
open Function (update)

variable {K : Type} [Field K] [CharZero K] (I : Interp K)

/-! ## Specification -/

/-- The value at `y` of the polynomial with coefficients `cs`. -/
def polyVal (I : Interp K) (ρ : String → K) (cs : List Expr) (y : K) : K :=
  ∑ i ∈ range cs.length, eval I ρ (cs.getD i (.num 0)) * y ^ i

/-- The coefficients are expressions free of `x` and without symbolic sums or products. -/
def Coeffs (x : String) (cs : List Expr) : Prop :=
  cs ≠ [] ∧ ∀ c ∈ cs, isScalarRep x c = true ∧ hasSumOrProd c = false

/-! ## Algebra -/

/-- The falling product `y (y-1) ... (y-k+1)`. -/
def ff (y : K) (k : ℕ) : K := ∏ i ∈ range k, (y - i)

theorem ff_succ (y : K) (k : ℕ) : ff y (k + 1) = ff y k * (y - k) := prod_range_succ _ _

theorem ff_shift (y : K) (k : ℕ) : ff (y + 1) (k + 1) = (y + 1) * ff y k := by
  unfold ff
  rw [prod_range_succ']
  rw [mul_comm]
  congr 1
  · simp
  · apply prod_congr rfl; intro i _; push_cast; ring

theorem ff_zero_succ (k : ℕ) : ff (0 : K) (k + 1) = 0 := by
  unfold ff; rw [prod_range_succ']; simp

theorem ff_nat (n k : ℕ) : ff (n : K) k = (k.factorial : K) * (n.choose k : K) := by
  induction k generalizing n with
  | zero => simp [ff]
  | succ k ih =>
    cases n with
    | zero => rw [Nat.cast_zero, ff_zero_succ]; simp
    | succ n =>
      push_cast
      rw [ff_shift, ih]
      have := Nat.add_one_mul_choose_eq n k
      have h2 : ((n : K) + 1) * (n.choose k : K) = ((n + 1).choose (k + 1) : K) * ((k : K) + 1) := by
        exact_mod_cast this
      rw [Nat.factorial_succ]; push_cast
      linear_combination (k.factorial : K) * h2

theorem sum_ff (n k : ℕ) : ∑ j ∈ range (n + 1), ff (j : K) k = ff ((n : K) + 1) (k + 1) / (k + 1) := by
  have hk : (k : K) + 1 ≠ 0 := by exact_mod_cast Nat.succ_ne_zero k
  rw [eq_div_iff hk]
  induction n with
  | zero =>
    simp only [zero_add, sum_range_one, Nat.cast_zero]
    have h := ff_shift (0 : K) k
    rw [zero_add] at h
    rw [h]
    cases k with
    | zero => simp [ff]
    | succ k => rw [ff_zero_succ]; ring
  | succ n ih =>
    rw [sum_range_succ, add_mul, ih]
    push_cast
    rw [ff_shift ((n : K) + 1) k, ff_succ]
    ring

theorem partial_binomial (k m : ℕ) (x : K) :
    ∑ i ∈ range (k + 1), (m.choose i : K) * x ^ (m - i) * (1 - x) ^ i
      - ∑ i ∈ range (k + 1), ((m + 1).choose i : K) * x ^ (m + 1 - i) * (1 - x) ^ i
      = (m.choose k : K) * x ^ (m - k) * (1 - x) ^ (k + 1) := by
  induction k with
  | zero => simp; ring
  | succ k ih =>
    rw [sum_range_succ, sum_range_succ _ (k + 1)]
    have hp : ((m + 1).choose (k + 1) : K) = (m.choose k : K) + (m.choose (k + 1) : K) := by
      rw [Nat.choose_succ_succ]; push_cast; ring
    rw [hp, Nat.add_sub_add_right]
    by_cases hm : k + 1 ≤ m
    · obtain ⟨d, rfl⟩ : ∃ d, m = k + 1 + d := ⟨m - (k + 1), by omega⟩
      have e1 : k + 1 + d - (k + 1) = d := by omega
      have e2 : k + 1 + d - k = d + 1 := by omega
      rw [e2] at ih ⊢
      rw [e1]
      linear_combination ih
    · rw [Nat.choose_eq_zero_of_lt (by omega : m < k + 1)]
      push_cast
      linear_combination ih

theorem sum_ff_exp (k n : ℕ) (x : K) (hx : x ≠ 1) :
    ∑ j ∈ range (n + 1), ff (j : K) k * x ^ j
      = ((1 - x) ^ (-(k : ℤ) - 1) - ∑ i ∈ range (k + 1), ff ((n : K) + 1) i / (i.factorial : K)
          * x ^ ((n : ℤ) + 1 - i) * (1 - x) ^ ((i : ℤ) - k - 1)) * ((k.factorial : K) * x ^ k) := by
  have hu : (1 - x) ≠ 0 := sub_ne_zero.mpr (Ne.symm hx)
  set G : ℕ → K := fun m => ∑ i ∈ range (k + 1), (m.choose i : K) * x ^ (m - i) * (1 - x) ^ i with hG
  have h0 : G 0 = 1 := by
    simp only [hG]
    rw [sum_range_succ']
    simp
  have tele : 1 - G (n + 1) = ∑ m ∈ range (n + 1), (m.choose k : K) * x ^ (m - k) * (1 - x) ^ (k + 1) := by
    have := sum_range_sub' G (n + 1)
    rw [h0] at this
    rw [← this]
    exact sum_congr rfl fun m _ => partial_binomial k m x
  have e1 : ∑ i ∈ range (k + 1), ff ((n : K) + 1) i / (i.factorial : K)
          * x ^ ((n : ℤ) + 1 - i) * (1 - x) ^ ((i : ℤ) - k - 1)
      = (1 - x) ^ (-(k : ℤ) - 1) * G (n + 1) := by
    simp only [hG, mul_sum]
    apply sum_congr rfl
    intro i _
    have hf : (i.factorial : K) ≠ 0 := by exact_mod_cast i.factorial_ne_zero
    have : ((n : K) + 1) = ((n + 1 : ℕ) : K) := by push_cast; ring
    rw [this, ff_nat, mul_div_cancel_left₀ _ hf]
    by_cases hi : i ≤ n + 1
    · have e2 : x ^ ((n : ℤ) + 1 - i) = x ^ (n + 1 - i) := by
        rw [← zpow_natCast]; congr 1; omega
      have e3 : (1 - x) ^ ((i : ℤ) - k - 1) = (1 - x) ^ (-(k : ℤ) - 1) * (1 - x) ^ i := by
        rw [← zpow_natCast, ← zpow_add₀ hu]; congr 1; ring
      rw [e2, e3]; ring
    · rw [Nat.choose_eq_zero_of_lt (by omega)]; simp
  rw [e1]
  have e4 : (1 - x) ^ (-(k : ℤ) - 1) - (1 - x) ^ (-(k : ℤ) - 1) * G (n + 1)
      = (1 - x) ^ (-(k : ℤ) - 1) * (1 - G (n + 1)) := by ring
  rw [e4, tele, mul_sum, sum_mul]
  apply sum_congr rfl
  intro m _
  have e5 : (1 - x) ^ (-(k : ℤ) - 1) * (1 - x) ^ (k + 1) = 1 := by
    rw [← zpow_natCast, ← zpow_add₀ hu]
    have : -(k : ℤ) - 1 + ((k + 1 : ℕ) : ℤ) = 0 := by push_cast; ring
    rw [this, zpow_zero]
  rw [ff_nat]
  by_cases hm : k ≤ m
  · have e6 : x ^ (m - k) * x ^ k = x ^ m := by rw [← pow_add]; congr 1; omega
    linear_combination (-(k.factorial : K) * (m.choose k : K) * x ^ (m - k) * x ^ k) * e5
      - (k.factorial : K) * (m.choose k : K) * e6
  · rw [Nat.choose_eq_zero_of_lt (by omega)]; simp

/-- Newton's form with the nodes `i, i+1, ...`. -/
def newton : List K → K → K → K
  | [], _, _ => 0
  | r :: rs, i, y => r + (y - i) * newton rs (i + 1) y

theorem newton_ff (rs : List K) (i : ℕ) (y : K) :
    ff y i * newton rs i y = ∑ t ∈ range rs.length, rs.getD t 0 * ff y (i + t) := by
  induction rs generalizing i with
  | nil => simp [newton]
  | cons r rs ih =>
    have h := ih (i + 1)
    rw [ff_succ] at h
    rw [newton, List.length_cons, sum_range_succ']
    simp only [List.getD_cons_succ, List.getD_cons_zero, add_zero]
    have e : ∑ k ∈ range rs.length, rs.getD k 0 * ff y (i + (k + 1))
        = ∑ t ∈ range rs.length, rs.getD t 0 * ff y (i + 1 + t) := by
      apply sum_congr rfl; intro t _; congr 2; omega
    rw [e, ← h]
    push_cast
    ring

/-! ## Constructors keep expressions free of `sum` and `prod` -/

theorem nb_addE {a b : Expr} (ha : hasSumOrProd a = false) (hb : hasSumOrProd b = false) :
    hasSumOrProd (addE a b) = false := by
  cases a <;> cases b <;> simp only [addE] <;> (try split) <;> simp_all [hasSumOrProd]

theorem nb_mulE {a b : Expr} (ha : hasSumOrProd a = false) (hb : hasSumOrProd b = false) :
    hasSumOrProd (mulE a b) = false := by
  cases a <;> cases b <;> simp only [mulE] <;> (try split) <;> (try split) <;>
    simp_all [hasSumOrProd]

theorem nb_powE {a b : Expr} (ha : hasSumOrProd a = false) (hb : hasSumOrProd b = false) :
    hasSumOrProd (powE a b) = false := by
  cases a <;> cases b <;> simp only [powE] <;> (try split) <;> (try split) <;>
    simp_all [hasSumOrProd]

theorem nb_num (q : ℚ) : hasSumOrProd (.num q) = false := by simp [hasSumOrProd]
theorem nb_sym (s : String) : hasSumOrProd (.sym s) = false := by simp [hasSumOrProd]
theorem nb_subE {a b : Expr} (ha : hasSumOrProd a = false) (hb : hasSumOrProd b = false) :
    hasSumOrProd (subE a b) = false := nb_addE ha (nb_mulE (nb_num _) hb)

theorem nb_foldr_addE {α : Type} (f : α → Expr) (l : List α) (z : Expr) (hz : hasSumOrProd z = false)
    (h : ∀ a ∈ l, hasSumOrProd (f a) = false) :
    hasSumOrProd (l.foldr (fun a acc => addE acc (f a)) z) = false := by
  induction l with
  | nil => exact hz
  | cons a l ih => exact nb_addE (ih fun b hb => h b (by simp [hb])) (h a (by simp))

theorem nb_foldr_mulE {α : Type} (f : α → Expr) (l : List α) (z : Expr) (hz : hasSumOrProd z = false)
    (h : ∀ a ∈ l, hasSumOrProd (f a) = false) :
    hasSumOrProd (l.foldr (fun a acc => mulE acc (f a)) z) = false := by
  induction l with
  | nil => exact hz
  | cons a l ih => exact nb_mulE (ih fun b hb => h b (by simp [hb])) (h a (by simp))

theorem nb_foldl {α : Type} (g : Expr → α → Expr) (l : List α) (z : Expr)
    (hz : hasSumOrProd z = false)
    (h : ∀ q a, hasSumOrProd q = false → a ∈ l → hasSumOrProd (g q a) = false) :
    hasSumOrProd (l.foldl g z) = false := by
  induction l generalizing z with
  | nil => exact hz
  | cons a l ih =>
    exact ih _ (h z a hz (by simp)) fun q b hq hb => h q b hq (by simp [hb])

theorem nb_substitute {s r e : Expr} (hr : hasSumOrProd r = false) (he : hasSumOrProd e = false) :
    hasSumOrProd (substitute s r e) = false := by
  induction e using Expr.ind with
  | num q => rw [substitute]; split <;> simp_all
  | const q => rw [substitute]; split <;> simp_all
  | sym t => rw [substitute]; split <;> simp_all
  | add l ih =>
    simp [hasSumOrProd] at he
    rw [substitute]; split
    · exact hr
    · exact nb_foldr_addE _ _ _ (nb_num _) fun a ha => ih a ha (he a ha)
  | mul l ih =>
    simp [hasSumOrProd] at he
    rw [substitute]; split
    · exact hr
    · exact nb_foldr_mulE _ _ _ (nb_num _) fun a ha => ih a ha (he a ha)
  | pow b e hb he' =>
    simp [hasSumOrProd] at he
    rw [substitute]; split
    · exact hr
    · exact nb_powE (hb he.1) (he' he.2)
  | fn f l ih =>
    simp [hasSumOrProd] at he
    rw [substitute]; split
    · exact hr
    · simp [hasSumOrProd]; exact fun a ha => ih a ha (he a ha)
  | binder k i a b c hi ha hb hc => simp [hasSumOrProd] at he

/-! ## Values of the building blocks -/

theorem eval_polyExprFrom (ρ : String → K) (x : String) (cs : List Expr) (k : ℕ) :
    eval I ρ (polyExprFrom x k cs)
      = ∑ i ∈ range cs.length, eval I ρ (cs.getD i (.num 0)) * ρ x ^ (k + i) := by
  induction cs generalizing k with
  | nil => simp [polyExprFrom, eval]
  | cons c cs ih =>
    rw [polyExprFrom, eval_addE, eval_mulE, eval_powE, ih, List.length_cons, sum_range_succ']
    simp only [eval, List.getD_cons_succ, List.getD_cons_zero, add_zero]
    rw [show (((k : ℕ) : ℚ) : K) = ((k : ℕ) : K) by push_cast; rfl, pw_nat, add_comm]
    congr 1
    apply sum_congr rfl; intro i _; congr 2; omega

theorem nb_polyExprFrom (x : String) (cs : List Expr) (k : ℕ)
    (h : ∀ c ∈ cs, hasSumOrProd c = false) : hasSumOrProd (polyExprFrom x k cs) = false := by
  induction cs generalizing k with
  | nil => exact nb_num _
  | cons c cs ih =>
    exact nb_addE (nb_mulE (h c (by simp)) (nb_powE (nb_sym _) (nb_num _)))
      (ih _ fun d hd => h d (by simp [hd]))

theorem eval_foldl_addE {α : Type} (ρ : String → K) (f : α → Expr) (l : List α) (z : Expr) :
    eval I ρ (l.foldl (fun q a => addE q (f a)) z)
      = eval I ρ z + (l.map fun a => eval I ρ (f a)).sum := by
  induction l generalizing z with
  | nil => simp
  | cons a l ih => simp [ih, eval_addE]; ring

theorem eval_foldl_subE {α : Type} (ρ : String → K) (f : α → Expr) (l : List α) (z : Expr) :
    eval I ρ (l.foldl (fun q a => subE q (f a)) z)
      = eval I ρ z - (l.map fun a => eval I ρ (f a)).sum := by
  induction l generalizing z with
  | nil => simp
  | cons a l ih => simp [ih, eval_subE]; ring

theorem eval_foldl_mulE {α : Type} (ρ : String → K) (f : α → Expr) (l : List α) (z : Expr) :
    eval I ρ (l.foldl (fun q a => mulE q (f a)) z)
      = eval I ρ z * (l.map fun a => eval I ρ (f a)).prod := by
  induction l generalizing z with
  | nil => simp
  | cons a l ih => simp [ih, eval_mulE]; ring

theorem list_sum_range (f : ℕ → K) (n : ℕ) : ((List.range n).map f).sum = ∑ i ∈ range n, f i := by
  induction n with
  | zero => simp
  | succ n ih => rw [List.range_succ, List.map_append, List.sum_append, ih, sum_range_succ]; simp

theorem list_prod_range (f : ℕ → K) (n : ℕ) : ((List.range n).map f).prod = ∏ i ∈ range n, f i := by
  induction n with
  | zero => simp
  | succ n ih => rw [List.range_succ, List.map_append, List.prod_append, ih, prod_range_succ]; simp

theorem eval_fallingProduct (ρ : String → K) (y : Expr) (k : ℕ) :
    eval I ρ (fallingProduct y k) = ff (eval I ρ y) k := by
  unfold fallingProduct ff
  rw [eval_foldl_mulE, list_prod_range]
  simp [eval_subE, eval]

theorem nb_fallingProduct {y : Expr} (h : hasSumOrProd y = false) (k : ℕ) :
    hasSumOrProd (fallingProduct y k) = false :=
  nb_foldl _ _ _ (nb_num _) fun _ _ hq _ => nb_mulE hq (nb_subE h (nb_num _))

theorem eval_sumFalling (ρ : String → K) (x N : String) (k n : ℕ) (hN : ρ N = n) (hx : ρ x ≠ 1) :
    eval I ρ (sumFallingProdTimesExp k x N) = ∑ j ∈ range (n + 1), ff (j : K) k * ρ x ^ j := by
  rw [sum_ff_exp k n (ρ x) hx]
  unfold sumFallingProdTimesExp
  simp only [eval_mulE, eval_foldl_subE, list_sum_range, eval_powE, eval_subE, eval_addE,
    eval_fallingProduct, eval, hN, Rat.cast_one]
  have z1 : ∀ z : ℤ, ∀ q : ℚ, q = z → ∀ a : K, I.pw a (q : K) = a ^ z := by
    rintro z q rfl a; rw [Rat.cast_intCast, I.pw_int]
  congr 1
  · congr 1
    · rw [z1 (-(k : ℤ) - 1)]; push_cast; ring
    · apply sum_congr rfl
      intro i _
      have h1 : ((n : K) + 1 - (((i : ℕ) : ℚ) : K)) = (((n : ℤ) + 1 - i : ℤ) : K) := by push_cast; ring
      rw [z1 ((i : ℤ) - k - 1) _ (by push_cast; ring), h1, I.pw_int]
      push_cast
      ring
  · rw [z1 (k : ℤ) _ (by push_cast; rfl)]
    push_cast; rw [zpow_natCast]

theorem nb_sumFalling (x N : String) (k : ℕ) : hasSumOrProd (sumFallingProdTimesExp k x N) = false := by
  unfold sumFallingProdTimesExp
  have hN : hasSumOrProd (addE (.sym N) (.num 1)) = false := nb_addE (nb_sym _) (nb_num _)
  have hx : hasSumOrProd (subE (.num 1) (.sym x)) = false := nb_subE (nb_num _) (nb_sym _)
  refine nb_mulE (nb_foldl _ _ _ (nb_powE hx (nb_num _)) fun q i hq _ => nb_subE hq ?_)
    (nb_mulE (nb_num _) (nb_powE (nb_sym _) (nb_num _)))
  exact nb_mulE (nb_mulE (nb_mulE (nb_fallingProduct hN _) (nb_num _))
    (nb_powE (nb_sym _) (nb_subE hN (nb_num _)))) (nb_powE hx (nb_num _))

/-! ## `poly_dec` -/

theorem polyDecLoop_spec (ρ : String → K) (x : String) (m : ℕ) : ∀ (i : ℕ) (q r : Expr) (P : K[X]),
    P.natDegree ≤ m → hasSumOrProd q = false → hasSumOrProd r = false →
    (∀ y, (∀ j < i, y ≠ (j : K)) → eval I (update ρ x y) q = P.eval y) →
    (∀ y, eval I (update ρ x y) r = P.eval (i : K)) →
    (polyDecLoop x m i q r).length = m ∧
    (∀ s ∈ polyDecLoop x m i q r, hasSumOrProd s = false ∧
      ∀ y, eval I (update ρ x y) s = eval I ρ s) ∧
    ∀ y, P.eval y = newton (P.eval (i : K) :: (polyDecLoop x m i q r).map (eval I ρ)) i y := by
  induction m with
  | zero =>
    intro i q r P hd _ _ _ _
    refine ⟨rfl, by simp [polyDecLoop], fun y => ?_⟩
    obtain ⟨c, hc⟩ : ∃ c, P = C c := ⟨_, eq_C_of_natDegree_le_zero hd⟩
    simp [hc, newton, polyDecLoop]
  | succ m ih =>
    intro i q r P hd hq hr hqe hre
    set q' := mulE (subE q r) (powE (subE (.sym x) (.num i)) (.num (-1))) with hq'
    set r' := substitute (.sym x) (.num (i + 1 : ℕ)) q' with hr'
    set P' := (P - C (P.eval (i : K))) /ₘ (X - C (i : K)) with hP'
    have hdiv : (X - C (i : K)) * P' = P - C (P.eval (i : K)) := by
      apply mul_divByMonic_eq_iff_isRoot.mpr
      simp [IsRoot]
    have hPe : ∀ y, P.eval y = P.eval (i : K) + (y - i) * P'.eval y := by
      intro y
      have := congrArg (Polynomial.eval y) hdiv
      simp at this
      linear_combination -this
    have hdeg : P'.natDegree ≤ m := by
      rw [hP', natDegree_divByMonic _ (monic_X_sub_C _), natDegree_X_sub_C]
      have : (P - C (P.eval (i : K))).natDegree ≤ m + 1 :=
        (natDegree_sub_C (p := P)).trans_le hd
      omega
    have nbq : hasSumOrProd q' = false :=
      nb_mulE (nb_subE hq hr) (nb_powE (nb_subE (nb_sym _) (nb_num _)) (nb_num _))
    have hqe' : ∀ y, (∀ j < i + 1, y ≠ (j : K)) → eval I (update ρ x y) q' = P'.eval y := by
      intro y hy
      have hyi : y - (i : K) ≠ 0 := sub_ne_zero.mpr (hy i (by omega))
      rw [hq', eval_mulE, eval_subE, eval_powE, eval_subE, hqe y fun j hj => hy j (by omega), hre, hPe y]
      have hm1 : I.pw (y - (i : K)) (((-1 : ℤ)) : K) = (y - (i : K)) ^ (-1 : ℤ) := I.pw_int _ _
      have : eval I (update ρ x y) (.sym x) = y := by simp [eval]
      rw [this]
      simp only [eval]
      push_cast at hm1 ⊢
      rw [hm1, zpow_neg_one]
      field_simp
      ring
    have hre' : ∀ y, eval I (update ρ x y) r' = P'.eval ((i + 1 : ℕ) : K) := by
      intro y
      rw [hr', C18_substitute_binderfree I _ _ _ nbq]
      simp only [eval, Function.update_idem]
      rw [hqe']
      · push_cast; rfl
      · intro j hj
        push_cast
        intro h
        have : (i + 1 : ℕ) = j := by exact_mod_cast h
        omega
    have hre0 : eval I ρ r' = P'.eval ((i + 1 : ℕ) : K) := by
      have := hre' (ρ x); rwa [Function.update_eq_self] at this
    have nbr : hasSumOrProd r' = false := nb_substitute (nb_num _) nbq
    obtain ⟨h1, h2, h3⟩ := ih (i + 1) q' r' P' hdeg nbq nbr hqe' hre'
    have hl : polyDecLoop x (m + 1) i q r = r' :: polyDecLoop x m (i + 1) q' r' := rfl
    rw [hl]
    refine ⟨by simp [h1], ?_, ?_⟩
    · intro s hs
      rcases List.mem_cons.mp hs with rfl | hs
      · exact ⟨nbr, fun y => by rw [hre', hre0]⟩
      · exact h2 s hs
    · intro y
      rw [newton, hPe y, h3 y, List.map_cons, hre0]
      push_cast
      rfl

/-- The polynomial with the values of the coefficients as coefficients. -/
noncomputable def polyOf (I : Interp K) (ρ : String → K) (cs : List Expr) : K[X] :=
  ∑ i ∈ range cs.length, C (eval I ρ (cs.getD i (.num 0))) * X ^ i

theorem polyOf_eval (ρ : String → K) (cs : List Expr) (y : K) :
    (polyOf I ρ cs).eval y = polyVal I ρ cs y := by
  simp [polyOf, polyVal, eval_finsetSum]

theorem getD_mem_or {cs : List Expr} {i : ℕ} (h : i < cs.length) :
    cs.getD i (.num 0) ∈ cs := by
  rw [List.getD_eq_getElem?_getD, List.getElem?_eq_getElem h]; exact List.getElem_mem h

/-- `poly_dec` computes the coefficients of the decomposition into falling products. -/
theorem polyDec_spec (ρ : String → K) (x : String) (cs : List Expr) (hc : Coeffs x cs) :
    (polyDec x cs).length = polyDegree cs + 1 ∧
    (∀ s ∈ polyDec x cs, hasSumOrProd s = false ∧ ∀ y, eval I (update ρ x y) s = eval I ρ s) ∧
    ∀ y, polyVal I ρ cs y = ∑ t ∈ range (polyDegree cs + 1),
      eval I ρ (polyCoeff (polyDec x cs) t) * ff y t := by
  obtain ⟨hne, hcs⟩ := hc
  have hlen : 0 < cs.length := List.length_pos_of_ne_nil hne
  have h0 := hcs _ (getD_mem_or hlen)
  have hdeg : (polyOf I ρ cs).natDegree ≤ polyDegree cs := by
    apply natDegree_sum_le_of_forall_le
    intro i hi
    refine (natDegree_C_mul_X_pow_le _ _).trans ?_
    simp at hi
    unfold polyDegree; omega
  have hq : ∀ y, (∀ j < 0, y ≠ ((j : ℕ) : K)) →
      eval I (update ρ x y) (polyExpr x cs) = (polyOf I ρ cs).eval y := by
    intro y _
    rw [polyOf_eval, polyExpr, eval_polyExprFrom]
    unfold polyVal
    apply sum_congr rfl
    intro i hi
    simp at hi
    rw [C20_scalar_sound I x _ (hcs _ (getD_mem_or hi)).1, zero_add]
    simp
  have hr0 : eval I ρ (polyCoeff cs 0) = (polyOf I ρ cs).eval ((0 : ℕ) : K) := by
    rw [polyOf_eval]
    unfold polyVal polyCoeff
    rw [sum_eq_single 0]
    · simp
    · intro b _ hb; simp [hb]
    · intro h; simp [hlen] at h
  have hr : ∀ y, eval I (update ρ x y) (polyCoeff cs 0) = (polyOf I ρ cs).eval ((0 : ℕ) : K) := by
    intro y
    rw [← hr0]
    unfold polyCoeff
    exact C20_scalar_sound I x _ h0.1 ρ y
  obtain ⟨h1, h2, h3⟩ := polyDecLoop_spec I ρ x (polyDegree cs) 0 (polyExpr x cs) (polyCoeff cs 0)
    (polyOf I ρ cs) hdeg (nb_polyExprFrom x cs 0 fun c hc => (hcs c hc).2) h0.2 hq hr
  refine ⟨by simp [polyDec, h1], ?_, ?_⟩
  · intro s hs
    rcases List.mem_cons.mp hs with rfl | hs
    · exact ⟨h0.2, fun y => by rw [hr, hr0]⟩
    · exact h2 s hs
  · intro y
    rw [← polyOf_eval, h3 y, ← hr0]
    have := newton_ff ((polyDec x cs).map (eval I ρ)) 0 y
    simp only [ff, range_zero, prod_empty, one_mul, zero_add, List.length_map] at this
    have e : (polyDec x cs).length = polyDegree cs + 1 := by simp [polyDec, h1]
    rw [e] at this
    have e2 : eval I ρ (polyCoeff cs 0) :: (polyDecLoop x (polyDegree cs) 0 (polyExpr x cs)
        (polyCoeff cs 0)).map (eval I ρ) = (polyDec x cs).map (eval I ρ) := rfl
    rw [e2, this]
    apply sum_congr rfl
    intro t ht
    congr 1
    simp at ht
    unfold polyCoeff
    have hl : t < (polyDec x cs).length := by rw [e]; omega
    simp [List.getD_eq_getElem?_getD, hl]

theorem polyCoeff_mem {l : List Expr} {i : ℕ} (h : i < l.length) : polyCoeff l i ∈ l :=
  getD_mem_or h

/-- **C10.**  For every polynomial (given by its coefficients), every base `alpha` that is
the number 1 or has a value other than 1, and every natural `n`, the closed form returned by
`sum_poly_times_exponentials` has the value `Σ_{j=0}^{n} p(j) alpha^j`. -/
theorem C10_sum_poly_times_exponentials (ρ : String → K) (x N : String) (hxN : x ≠ N)
    (cs : List Expr) (hc : Coeffs x cs) (alpha : Expr)
    (ha : alpha = .num 1 ∨ eval I ρ alpha ≠ 1) (n : ℕ) (hN : ρ N = n) :
    eval I ρ (sumPolyTimesExponentials x N cs alpha)
      = ∑ j ∈ range (n + 1), polyVal I ρ cs j * eval I ρ alpha ^ j := by
  obtain ⟨h1, h2, h3⟩ := polyDec_spec I ρ x cs hc
  have hmem : ∀ i, i < polyDegree cs + 1 → polyCoeff (polyDec x cs) i ∈ polyDec x cs :=
    fun i hi => polyCoeff_mem (by omega)
  have nbN : hasSumOrProd (addE (.sym N) (.num 1)) = false := nb_addE (nb_sym _) (nb_num _)
  unfold sumPolyTimesExponentials
  split
  · rename_i h
    have nb : hasSumOrProd (sumPoly x N cs) = false := by
      unfold sumPoly
      refine nb_foldl _ _ _ (nb_num _) fun q i hq hi => nb_addE hq (nb_mulE (nb_mulE (nb_num _) ?_)
        (nb_fallingProduct nbN _))
      exact (h2 _ (hmem i (by simpa using hi))).1
    rw [C18_substitute_binderfree I _ _ _ nb]
    subst h
    unfold sumPoly
    rw [eval_foldl_addE, list_sum_range]
    simp only [eval, Rat.cast_zero, zero_add, Rat.cast_one, one_pow, mul_one, h3]
    rw [sum_comm]
    apply sum_congr rfl
    intro i hi
    rw [← mul_sum, sum_ff, eval_mulE, eval_mulE, eval_fallingProduct, eval_addE,
      (h2 _ (hmem i (by simpa using hi))).2]
    simp only [eval, Rat.cast_one, Function.update_of_ne (Ne.symm hxN), hN]
    push_cast
    ring
  · rename_i h
    have ha' : eval I ρ alpha ≠ 1 := ha.resolve_left h
    set a := eval I ρ alpha with hadef
    have nb : hasSumOrProd ((List.range (polyDegree cs + 1)).foldl (fun q (i : Nat) =>
        addE q (mulE (sumFallingProdTimesExp i x N) (polyCoeff (polyDec x cs) i))) (.num 0))
        = false := by
      refine nb_foldl _ _ _ (nb_num _) fun q i hq hi => nb_addE hq (nb_mulE (nb_sumFalling _ _ _) ?_)
      exact (h2 _ (hmem i (by simpa using hi))).1
    rw [C18_substitute_binderfree I _ _ _ nb, ← hadef]
    rw [eval_foldl_addE, list_sum_range]
    simp only [eval, Rat.cast_zero, zero_add, h3, sum_mul]
    rw [sum_comm]
    apply sum_congr rfl
    intro i hi
    rw [eval_mulE, eval_sumFalling I _ x N i n (by rw [Function.update_of_ne (Ne.symm hxN), hN])
      (by simpa using ha'), (h2 _ (hmem i (by simpa using hi))).2, sum_mul]
    apply sum_congr rfl
    intro j _
    simp
    ring

/-- A concrete instance: `Σ_{j=0}^{n} (1 + 3 j) 2^j`. -/
example (n : ℕ) : eval ratInterp (fun s => if s = "n" then (n : ℚ) else 0)
    (sumPolyTimesExponentials "x" "n" [.num 1, .num 3] (.num 2))
      = ∑ j ∈ range (n + 1), (1 + 3 * (j : ℚ)) * 2 ^ j := by
  rw [C10_sum_poly_times_exponentials ratInterp _ "x" "n" (by decide) [.num 1, .num 3]
    (by simp [Coeffs, isScalarRep, hasSumOrProd]) (.num 2) (Or.inr (by simp [eval])) n (by simp)]
  apply sum_congr rfl
  intro j _
  simp [polyVal, eval, sum_range_succ]

/-! ## C11: Levy's algorithm -/

/-- The polynomial with the coefficients of exponent `i`. -/
noncomputable def levyPoly (c : List ℚ) : ℚ[X] := ∑ m ∈ range c.length, C (c.getD m 0) * X ^ (m + 1)

theorem levyCoeffs_length (i : ℕ) : (levyCoeffs i).length = i + 1 := by
  induction i with
  | zero => rfl
  | succ i ih => simp [levyCoeffs, levyStep, ih]

theorem list_sum_getD (l : List ℚ) : l.sum = ∑ m ∈ range l.length, l.getD m 0 := by
  induction l with
  | nil => simp
  | cons a l ih => rw [List.sum_cons, List.length_cons, sum_range_succ', ih]; simp [add_comm]

theorem levyStep_getD_succ (i : ℕ) (c : List ℚ) (m : ℕ) (hm : m < c.length) :
    (levyStep i c).getD (m + 1) 0 = (i : ℚ) * c.getD m 0 / ((m : ℚ) + 2) := by
  unfold levyStep
  simp only [List.getD_cons_succ]
  simp [List.getD_eq_getElem?_getD, hm]

theorem levyStep_sum (i : ℕ) (c : List ℚ) : (levyStep i c).sum = 1 := by
  simp [levyStep]

theorem levyPoly_derivative (i : ℕ) (c : List ℚ) :
    derivative (levyPoly (levyStep i c)) = C (i : ℚ) * levyPoly c + C ((levyStep i c).getD 0 0) := by
  unfold levyPoly
  have : (levyStep i c).length = c.length + 1 := by simp [levyStep]
  rw [this, sum_range_succ', derivative_add, derivative_sum, mul_sum]
  congr 1
  · apply sum_congr rfl
    intro m hm
    rw [levyStep_getD_succ _ _ _ (by simpa using hm), derivative_C_mul_X_pow]
    simp only [← mul_assoc, ← C_mul]
    congr 2
    push_cast
    have : (m : ℚ) + 2 ≠ 0 := by positivity
    field_simp
    ring
  · simp

theorem levyPoly_diff (i : ℕ) :
    levyPoly (levyCoeffs i) - (levyPoly (levyCoeffs i)).comp (X - 1) = X ^ i := by
  induction i with
  | zero => simp [levyPoly, levyCoeffs]
  | succ i ih =>
    set Q := levyPoly (levyCoeffs (i + 1)) with hQ
    have hd : derivative (Q - Q.comp (X - 1) - X ^ (i + 1)) = 0 := by
      rw [derivative_sub, derivative_sub, derivative_comp, hQ, levyCoeffs, levyPoly_derivative,
        derivative_X_pow]
      simp only [derivative_sub, derivative_X, derivative_one, sub_zero, one_mul, add_comp, mul_comp,
        C_comp]
      have := congrArg (fun p => C ((i + 1 : ℕ) : ℚ) * p) ih
      simp only [mul_sub] at this
      push_cast at this ⊢
      linear_combination this
    have h0 : Q.eval 0 = 0 := by simp [hQ, levyPoly, eval_finsetSum]
    have h1 : Q.eval 1 = 1 := by
      simp only [hQ, levyPoly, eval_finsetSum, eval_mul, eval_C, eval_pow, eval_X, one_pow, mul_one]
      rw [← list_sum_getD, levyCoeffs, levyStep_sum]
    have hc := derivative_eq_zero.mp hd
    obtain ⟨c, hc⟩ := natDegree_eq_zero.mp hc
    have : c = 0 := by
      have := congrArg (Polynomial.eval 1) hc
      simp [h1, h0] at this
      exact this
    rw [this, C_0] at hc
    exact sub_eq_zero.mp hc.symm

theorem levyPoly_sum (i : ℕ) (n : ℕ) :
    (levyPoly (levyCoeffs i)).eval (n : ℚ) = ∑ j ∈ range n, ((j : ℚ) + 1) ^ i := by
  induction n with
  | zero => simp [levyPoly, eval_finsetSum]
  | succ n ih =>
    rw [sum_range_succ, ← ih]
    have := congrArg (Polynomial.eval ((n : ℚ) + 1)) (levyPoly_diff i)
    simp at this
    push_cast
    linear_combination this

theorem eval_levyPartial (ρ : String → K) (N : String) (i n : ℕ) (hN : ρ N = n) :
    eval I ρ (levyPartial N i) = ∑ j ∈ range n, ((j : K) + 1) ^ i := by
  have h := congrArg (Rat.cast : ℚ → K) (levyPoly_sum i n)
  push_cast at h
  rw [← h]
  unfold levyPartial
  rw [eval_foldr_addE, list_sum_range]
  simp only [eval, Rat.cast_zero, zero_add, levyPoly, levyCoeffs_length, eval_finsetSum, eval_mul,
    eval_C, eval_pow, eval_X, Rat.cast_sum, Rat.cast_mul, Rat.cast_pow, Rat.cast_natCast]
  apply sum_congr rfl
  intro m _
  rw [eval_mulE, eval_powE]
  simp only [eval, hN]
  have : (((m : ℚ) + 1 : ℚ) : K) = ((m + 1 : ℕ) : K) := by push_cast; ring
  rw [this, pw_nat]
  ring

/-- **C11.**  `sum_poly_alt` has the value `Σ_{j=0}^{n} p(j)` for every natural `n`. -/
theorem C11_sum_poly_alt (ρ : String → K) (N : String) (cs : List Expr) (hc : cs ≠ []) (n : ℕ)
    (hN : ρ N = n) :
    eval I ρ (sumPolyAlt N cs) = ∑ j ∈ range (n + 1), polyVal I ρ cs j := by
  have hlen : cs.length = polyDegree cs + 1 := by
    have := List.length_pos_of_ne_nil hc; unfold polyDegree; omega
  unfold sumPolyAlt polyVal
  rw [eval_foldl_addE, list_sum_range, hlen]
  rw [sum_comm, sum_range_succ', add_comm]
  congr 1
  · apply sum_congr rfl
    intro m _
    rw [eval_mulE, eval_levyPartial I ρ N _ n hN, ← mul_sum, sum_range_succ']
    simp [polyCoeff]
    ring
  · simp [eval_mulE, eval_addE, eval, hN, polyCoeff]

example (n : ℕ) : eval ratInterp (fun s => if s = "n" then (n : ℚ) else 0)
    (sumPolyAlt "n" [.num 0, .num 0, .num 1]) = ∑ j ∈ range (n + 1), (j : ℚ) ^ 2 := by
  rw [C11_sum_poly_alt ratInterp _ "n" _ (by simp) n (by simp)]
  apply sum_congr rfl
  intro j _
  simp [polyVal, eval, sum_range_succ]

end Purrs
