import Verif.Model.EvalRules
import Verif.Props.Eliminate
import Verif.Props.WeightedAvg

/-!
# C24 and C74: the automatic evaluation rules

The specification: `floor` is the greatest integer below, `mod(a, b)` the remainder with the sign of `b`,
`binom(m, k) = m (m-1) ... (m-k+1) / k!`, a sum (product) over `k = a, ..., b` is the sum (product) of the values of its body,
empty if `b < a`; `max` and `min` are the larger and the smaller value.
-/

set_option linter.unusedSectionVars false

namespace Purrs.EvalRules

open Purrs Purrs.OrderRed Purrs.WeightedAvg
open Function (update update_of_ne update_self update_comm)
open Finset (Icc range)

section
variable {K : Type} [Field K] [CharZero K] (I : Interp K)

/-- Sums and products with integer bounds range over the integers between them. -/
structure StdBind : Prop where
  sum : ∀ (f : K → K) (a b : ℤ), I.bind .sum (a : K) (b : K) f = ∑ k ∈ Icc a b, f k
  prod : ∀ (f : K → K) (a b : ℤ), I.bind .prod (a : K) (b : K) f = ∏ k ∈ Icc a b, f k

theorem stdBind_real (ξ : ℝ → ℝ) : StdBind (realInterp ξ) :=
  ⟨fun f a b => by simp [realInterp], fun f a b => by simp [realInterp]⟩

/-! ### Loops -/

theorem loopUp_eq {α : Type} (f : α → ℚ → α) (up lo : ℚ) (acc : α) :
    loopUp f up lo acc = (List.range (⌊up - lo⌋ + 1).toNat).foldl (fun a (k : ℕ) => f a (lo + k)) acc := by
  induction hN : (⌊up - lo⌋ + 1).toNat generalizing lo acc with
  | zero =>
    rw [loopUp, if_neg]
    · rfl
    · intro h
      have : 0 ≤ ⌊up - lo⌋ := Int.floor_nonneg.mpr (by linarith)
      omega
  | succ N ih =>
    have h : lo ≤ up := by
      by_contra h
      have : ⌊up - lo⌋ < 0 := Int.floor_lt.mpr (by push_cast; linarith)
      omega
    have h1 : (⌊up - (lo + 1)⌋ + 1).toNat = N := by
      rw [show up - (lo + 1) = up - lo - 1 by ring, Int.floor_sub_one]
      omega
    rw [loopUp, if_pos h, ih _ _ h1, List.range_succ_eq_map, List.foldl_cons, List.foldl_map]
    simp only [Nat.cast_zero, add_zero, Nat.succ_eq_add_one]
    congr 1
    funext a k
    congr 1
    push_cast
    ring

theorem loopUp_sum (g : ℚ → Expr) (ρ : String → K) (up lo : ℚ) (acc : Expr) :
    eval I ρ (loopUp (fun s j => addE s (g j)) up lo acc) =
      eval I ρ acc + ∑ k ∈ range (⌊up - lo⌋ + 1).toNat, eval I ρ (g (lo + k)) := by
  rw [loopUp_eq]
  induction (⌊up - lo⌋ + 1).toNat with
  | zero => simp
  | succ N ih => rw [List.range_succ, List.foldl_append, List.foldl_cons, List.foldl_nil, eval_addE, ih, Finset.sum_range_succ]; ring

theorem loopUp_prod (g : ℚ → Expr) (ρ : String → K) (up lo : ℚ) (acc : Expr) :
    eval I ρ (loopUp (fun s j => mulE s (g j)) up lo acc) =
      eval I ρ acc * ∏ k ∈ range (⌊up - lo⌋ + 1).toNat, eval I ρ (g (lo + k)) := by
  rw [loopUp_eq]
  induction (⌊up - lo⌋ + 1).toNat with
  | zero => simp
  | succ N ih => rw [List.range_succ, List.foldl_append, List.foldl_cons, List.foldl_nil, eval_mulE, ih, Finset.prod_range_succ]; ring

theorem sum_Icc_range (f : ℤ → K) (a b : ℤ) : ∑ k ∈ Icc a b, f k = ∑ k ∈ range (b - a + 1).toNat, f (a + k) := by
  rw [Int.Icc_eq_finset_map, Finset.sum_map, show b + 1 - a = b - a + 1 by ring]
  rfl

theorem prod_Icc_range (f : ℤ → K) (a b : ℤ) : ∏ k ∈ Icc a b, f k = ∏ k ∈ range (b - a + 1).toNat, f (a + k) := by
  rw [Int.Icc_eq_finset_map, Finset.prod_map, show b + 1 - a = b - a + 1 by ring]
  rfl

theorem eval_substNum (i : String) {e : Expr} (he : idxNe i e = true) (q : ℚ) (ρ : String → K) :
    eval I ρ (substitute (.sym i) (.num q) e) = eval I (update ρ i (q : K)) e := by
  rw [eval_substN I (fun _ _ _ _ => by simp [eval]) he]
  simp [eval]

/-! ### C74: numeric arguments -/

/-- **C74, sums**: with integer bounds the rule answers, and with the sum of the values of the summand. -/
theorem C74_sum (i : String) (lo up : ℤ) {body : Expr} (hb : idxNe i body = true) :
    ∃ r, sumEval i (.num lo) (.num up) body = some r ∧
      ∀ ρ : String → K, eval I ρ r = ∑ k ∈ Icc lo up, eval I (update ρ i (k : K)) body := by
  simp only [sumEval, Rat.den_intCast, if_true]
  split_ifs with h1 h2
  · have h1 : up < lo := by exact_mod_cast h1
    exact ⟨_, rfl, fun ρ => by rw [Finset.Icc_eq_empty (by omega)]; simp [eval]⟩
  · have h2 : lo = up := by exact_mod_cast h2
    subst h2
    exact ⟨_, rfl, fun ρ => by rw [eval_substNum I i hb, Finset.Icc_self, Finset.sum_singleton]; push_cast; rfl⟩
  · refine ⟨_, rfl, fun ρ => ?_⟩
    rw [loopUp_sum I (fun j => substitute (.sym i) (.num j) body), sum_Icc_range (fun k => eval I (update ρ i (k : K)) body)]
    rw [show (⌊(up : ℚ) - lo⌋ + 1).toNat = (up - lo + 1).toNat by
      rw [show (up : ℚ) - lo = ((up - lo : ℤ) : ℚ) by push_cast; ring, Int.floor_intCast]]
    simp only [eval, Rat.cast_zero, zero_add]
    refine Finset.sum_congr rfl fun k _ => ?_
    rw [eval_substNum I i hb]
    push_cast
    rfl

/-- A sum with a bound that is no integer is rejected. -/
theorem C74_sum_rejected (i : String) (lo up : ℚ) (body : Expr) :
    sumEval i (.num lo) (.num up) body = none ↔ lo.den ≠ 1 ∨ up.den ≠ 1 := by
  simp only [sumEval]
  split_ifs <;> simp_all

/-- **C74, products**: with rational bounds `a` and `b` the rule answers with the product of the values of the factor at
`a, a + 1, ...` as long as they do not exceed `b`. -/
theorem C74_prod (i : String) (lo up : ℚ) {body : Expr} (hb : idxNe i body = true) :
    ∃ r, prodEval i (.num lo) (.num up) body = some r ∧
      ∀ ρ : String → K, eval I ρ r = ∏ k ∈ range (⌊up - lo⌋ + 1).toNat, eval I (update ρ i ((lo + k : ℚ) : K)) body := by
  simp only [prodEval]
  split_ifs with h1 h2
  · have : ⌊up - lo⌋ < 0 := Int.floor_lt.mpr (by push_cast; linarith)
    exact ⟨_, rfl, fun ρ => by rw [show (⌊up - lo⌋ + 1).toNat = 0 by omega]; simp [eval]⟩
  · subst h2
    exact ⟨_, rfl, fun ρ => by rw [eval_substNum I i hb]; simp⟩
  · refine ⟨_, rfl, fun ρ => ?_⟩
    rw [loopUp_prod I (fun j => substitute (.sym i) (.num j) body)]
    simp only [eval, Rat.cast_one, one_mul]
    exact Finset.prod_congr rfl fun k _ => by rw [eval_substNum I i hb]

/-- **C74, products with integer bounds**. -/
theorem C74_prod_integer (i : String) (lo up : ℤ) {body : Expr} (hb : idxNe i body = true) :
    ∃ r, prodEval i (.num lo) (.num up) body = some r ∧
      ∀ ρ : String → K, eval I ρ r = ∏ k ∈ Icc lo up, eval I (update ρ i (k : K)) body := by
  obtain ⟨r, hr, h⟩ := C74_prod I i lo up hb
  refine ⟨r, hr, fun ρ => ?_⟩
  rw [h ρ, prod_Icc_range (fun k => eval I (update ρ i (k : K)) body)]
  rw [show (⌊(up : ℚ) - lo⌋ + 1).toNat = (up - lo + 1).toNat by
      rw [show (up : ℚ) - lo = ((up - lo : ℤ) : ℚ) by push_cast; ring, Int.floor_intCast]]
  refine Finset.prod_congr rfl fun k _ => ?_
  push_cast
  rfl

/-- **C74, binomial coefficients** `binom(p, k)` of a rational and a natural number. -/
theorem C74_binomial (h : String) (p : ℚ) (k : ℕ) :
    ∃ r, binomEval h (.num p) (.num k) = some r ∧
      ∀ ρ : String → K, eval I ρ r = (∏ j ∈ range k, ((p : K) - j)) / k.factorial := by
  obtain ⟨r, hr, hv⟩ := C74_prod I h (p - k + 1) p (body := .sym h) (by simp [idxNe])
  refine ⟨mulE r (powE (.num (k.factorial : ℕ)) (.num (-1))), ?_, fun ρ => ?_⟩
  · simp only [binomEval]
    rw [if_neg (by simp), hr]
    simp
  · rw [eval_mulE, eval_powE, hv]
    rw [show (⌊p - (p - k + 1)⌋ + 1).toNat = k by
      rw [show p - (p - k + 1) = ((k - 1 : ℤ) : ℚ) by push_cast; ring, Int.floor_intCast]; omega]
    simp only [eval, update_self]
    rw [show (((-1 : ℚ)) : K) = ((-1 : ℤ) : K) by push_cast; rfl, I.pw_int, zpow_neg_one, div_eq_mul_inv]
    congr 1
    · rw [← Finset.prod_range_reflect]
      refine Finset.prod_congr rfl fun j hj => ?_
      rw [Finset.mem_range] at hj
      have h1 : ((k - 1 - j : ℕ) : ℚ) = k - 1 - j := by
        rw [Nat.sub_sub, Nat.cast_sub (by omega)]; push_cast; ring
      rw [h1]
      push_cast
      ring
    · simp

/-- `binom(p, q)` is rejected exactly for numbers `q` that are not natural. -/
theorem C74_binomial_rejected (h : String) (p q : ℚ) :
    binomEval h (.num p) (.num q) = none ↔ ¬ ∃ k : ℕ, q = k := by
  simp only [binomEval]
  split_ifs with h1
  · simp only [true_iff]
    rintro ⟨k, rfl⟩
    rcases h1 with h1 | h1
    · have : (0 : ℚ) ≤ k := Nat.cast_nonneg k
      linarith
    · simp at h1
  · push Not at h1
    obtain ⟨r, hr, -⟩ := C74_prod ratInterp h (p - q + 1) p (body := .sym h) (by simp [idxNe])
    rw [hr]
    simp only [Option.map_some, reduceCtorEq, false_iff, not_not]
    refine ⟨q.num.toNat, ?_⟩
    have h2 : ((q.num.toNat : ℤ) : ℚ) = q := by
      rw [Int.toNat_of_nonneg (Rat.num_nonneg.mpr h1.1)]
      exact (Rat.den_eq_one_iff q).mp h1.2
    exact_mod_cast h2.symm

end

/-- **C74, floor**: the rule keeps the value of `floor(e)`. -/
theorem C74_floor (ξ : ℝ → ℝ) (ρ : String → ℝ) (e : Expr) :
    eval (realInterp ξ) ρ (floorEval e) = (⌊eval (realInterp ξ) ρ e⌋ : ℤ) := by
  cases e with
  | num q =>
    simp only [floorEval]
    split_ifs with h
    · simp only [eval]
      rw [ratCast_of_den_one h, Int.floor_intCast]
    · simp only [eval, Rat.cast_intCast]
      congr 1
      rw [Rat.floor_cast, Int.fdiv_eq_ediv_of_nonneg _ (by positivity), Rat.floor_def']
  | _ => simp [floorEval, eval, realInterp, realFn]

/-- Examples: `floor(-7/2) = -4`, `binom(-1/2, 2) = 3/8`, `sum(k, 1, 3, k^2) = 14`. -/
theorem C74_nonvacuous : floorEval (.num (-7 / 2)) = .num (-4) ∧
    (∃ r, binomEval "h" (.num (-1 / 2)) (.num (2 : ℕ)) = some r ∧ ∀ ρ, eval ratInterp ρ r = 3 / 8) ∧
    ∃ r, sumEval "k" (.num (1 : ℤ)) (.num (3 : ℤ)) (.pow (.sym "k") (.num 2)) = some r ∧ ∀ ρ, eval ratInterp ρ r = 14 := by
  refine ⟨?_, ?_, ?_⟩
  · have h : (-7 / 2 : ℚ).den = 2 := by norm_num
    have h' : (-7 / 2 : ℚ).num = -7 := by norm_num
    simp only [floorEval, h, h']
    norm_num
    decide
  · obtain ⟨r, hr, h⟩ := C74_binomial ratInterp "h" (-1 / 2) 2
    refine ⟨r, hr, fun ρ => ?_⟩
    rw [h ρ]
    norm_num [Finset.prod_range_succ, Nat.factorial]
  · obtain ⟨r, hr, h⟩ := C74_sum ratInterp "k" 1 3 (body := .pow (.sym "k") (.num 2)) (by simp [idxNe])
    refine ⟨r, hr, fun ρ => ?_⟩
    rw [h ρ, show (Icc (1 : ℤ) 3) = {1, 2, 3} by decide]
    simp only [eval, update_self]
    rw [Finset.sum_insert (by decide), Finset.sum_insert (by decide), Finset.sum_singleton]
    norm_num [ratInterp]

end Purrs.EvalRules
