import Verif.Model.NonLinear
import Verif.Props.OrderRed
import Verif.Props.WeightedAvg
import Verif.Props.SumPoly
import Mathlib.Analysis.SpecialFunctions.Pow.Complex
import Mathlib.Analysis.SpecialFunctions.Pow.Real
import Mathlib.Algebra.Field.GeomSum

/-!
# C33: non-linear recurrences solved by taking logarithms
-/

set_option linter.unusedSectionVars false

namespace Purrs.NonLinear

open Purrs Purrs.OrderRed Purrs.WeightedAvg
open Function (update update_of_ne update_self update_comm)

/-! ## The substitution of the unknown -/

/-- Is it a symbol? -/
def isSym : Expr → Bool
  | .sym _ => true
  | _ => false

/-- The arguments of `x` do not contain `x`; the indices of sums and products are symbols. -/
def xflat : Expr → Bool
  | .add l => (l.map fun a => xflat a).all id
  | .mul l => (l.map fun a => xflat a).all id
  | .pow b e => xflat b && xflat e
  | .fn f l => if f = .x then (decide (l.length = 1) && l.all fun a => !hasX a) else (l.map fun a => xflat a).all id
  | .binder _ i lo up body => isSym i && xflat lo && xflat up && xflat body
  | _ => true

section
variable {K : Type} [Field K] [CharZero K] (I : Interp K)

/-- How the two functions `X`, `Y` have to be related for `substX k m` to turn `X` into `Y`. -/
def Related (k : Expr) (m : Mode) (X Y : K → K) : Prop :=
  match m with
  | .exponent => ∀ v (ρ : String → K), I.pw (eval (withX I Y) ρ k) (Y v) = X v
  | .argumentLog => ∀ v (ρ : String → K),
      I.fn .log [Y v] * I.pw (I.fn .log [eval (withX I Y) ρ k]) (-1) = X v

theorem fn_log (X : K → K) (l : List K) : (withX I X).fn .log l = I.fn .log l := rfl

theorem eval_substX (k : Expr) (m : Mode) (X Y : K → K) (h : Related I k m X Y) (e : Expr) (he : xflat e = true) :
    ∀ ρ : String → K, eval (withX I Y) ρ (substX k m e) = eval (withX I X) ρ e := by
  induction e using Expr.ind with
  | num q => intro ρ; simp [substX, eval]
  | const c => intro ρ; simp [substX, eval, withX]
  | sym s => intro ρ; simp [substX, eval]
  | add l ih =>
    intro ρ
    simp [xflat] at he
    rw [substX, eval_foldr_addE]
    simp only [eval, Rat.cast_zero, zero_add]
    congr 1
    exact List.map_congr_left fun a ha => ih a ha (he a ha) ρ
  | mul l ih =>
    intro ρ
    simp [xflat] at he
    rw [substX, eval_foldr_mulE]
    simp only [eval, Rat.cast_one, one_mul]
    congr 1
    exact List.map_congr_left fun a ha => ih a ha (he a ha) ρ
  | pow b e hb hx =>
    intro ρ
    simp [xflat] at he
    rw [substX, eval_powE, hb he.1, hx he.2]; simp only [eval]; rfl
  | fn f l ih =>
    intro ρ
    by_cases hf : f = .x
    · subst hf
      simp only [xflat, if_true, Bool.and_eq_true, decide_eq_true_eq] at he
      obtain ⟨h1, h2⟩ := he
      match l, h1 with
      | [a], _ =>
        have ha : hasX a = false := by simpa using h2
        cases m with
        | exponent =>
          rw [substX, if_pos rfl, xTo]
          rw [eval_powE, eval_x, eval_x, eval_noX I Y X a ha]
          exact h _ ρ
        | argumentLog =>
          rw [substX, if_pos rfl, xTo, logE]
          rw [eval_mulE, eval_powE, eval_x]
          have h3 := h (eval (withX I X) ρ a) ρ
          rw [← eval_noX I Y X a ha] at h3 ⊢
          simp only [eval, List.map_cons, List.map_nil]
          push_cast
          exact h3
    · have he' : ∀ a ∈ l, xflat a = true := by simpa [xflat, hf] using he
      rw [substX, if_neg hf, eval, eval, fn_ne_x I Y X hf]
      congr 1
      rw [List.map_map]
      exact List.map_congr_left fun a ha => ih a ha (he' a ha) ρ
  | binder b i lo up c hi hlo hup hc =>
    intro ρ
    simp [xflat] at he
    obtain ⟨⟨⟨h1, h2⟩, h3⟩, h4⟩ := he
    cases i with
    | sym s =>
      simp only [substX, eval]
      rw [hlo h2, hup h3]
      show I.bind _ _ _ _ = I.bind _ _ _ _
      congr 1
      funext w
      exact hc h4 _
    | _ => simp [isSym] at h1


/-! ## `x(n) = c x(n-1)^a` -/

theorem eval_simpleForm {n : String} {rhs : Expr} {c a : ℚ} (h : simpleForm n rhs = some (c, a)) (X : K → K)
    (ρ : String → K) (v : K) :
    eval (withX I X) (update ρ n v) rhs = c * I.pw (X (v - 1)) (a : K) := by
  unfold simpleForm at h
  split at h <;> [skip; skip; skip; simp at h] <;> split_ifs at h with h1 <;>
    (obtain ⟨rfl, rfl⟩ := h1; simp only [Option.some.injEq, Prod.mk.injEq] at h; obtain ⟨rfl, rfl⟩ := h) <;>
    simp [eval, withX, sub_eq_add_neg, mul_comm]

theorem eval_simpleSolution (n : String) (c a : ℚ) (X : K → K) (ρ : String → K) (N : ℕ) :
    eval (withX I X) (update ρ n (N : K)) (simpleSolution n c a)
      = I.pw (c : K) (((a : K) ^ N - 1) / ((a : K) - 1)) * I.pw (X 0) ((a : K) ^ N) := by
  unfold simpleSolution
  have h1 : I.pw ((a : K) - 1) (-1) = ((a : K) - 1)⁻¹ := by
    have := I.pw_int ((a : K) - 1) (-1)
    simpa using this
  simp only [eval_mulE, eval_powE, eval_subE, eval_x]
  simp only [eval, update_self]
  show I.pw (c : K) ((I.pw (a : K) (N : K) - ((1 : ℚ) : K)) * I.pw ((a : K) - ((1 : ℚ) : K)) ((-1 : ℚ) : K))
    * I.pw (X ((0 : ℚ) : K)) (I.pw (a : K) (N : K)) = _
  rw [pw_nat]
  push_cast
  rw [h1, div_eq_mul_inv]

/-- **C33**, `x(n) = c x(n-1)^a` with integer `a ≠ 1`: the returned expression has the value of the sequence, for
every `n`.  `c` and `x(0)` may be negative (division by zero yields zero). -/
theorem C33_simple_integer {n : String} {rhs : Expr} {c a : ℚ} (h : simpleForm n rhs = some (c, a))
    (ha : a.den = 1) (ha1 : a ≠ 1) (hc : c ≠ 0) (ρ : String → K) (X : K → K)
    (hX : SolvesAt I n rhs ρ X 1) (N : ℕ) :
    eval (withX I X) (update ρ n (N : K)) (simpleSolution n c a) = X N := by
  rw [eval_simpleSolution]
  set z := a.num with hz
  have haz : (a : K) = ((z : ℤ) : K) := ratCast_of_den_one ha
  have haK : (a : K) ≠ 1 := by exact_mod_cast ha1
  have hcK : (c : K) ≠ 0 := by exact_mod_cast hc
  have hgeom : ∀ M : ℕ, ((a : K) ^ M - 1) / ((a : K) - 1) = ((∑ i ∈ Finset.range M, z ^ i : ℤ) : K) := by
    intro M
    rw [← geom_sum_eq haK M, haz]
    push_cast
    rfl
  have hpow : ∀ M : ℕ, (a : K) ^ M = ((z ^ M : ℤ) : K) := by intro M; rw [haz]; push_cast; rfl
  have key : ∀ M : ℕ, X M = (c : K) ^ (∑ i ∈ Finset.range M, z ^ i : ℤ) * X 0 ^ (z ^ M : ℤ) := by
    intro M
    induction M with
    | zero => simp
    | succ M ih =>
      have h1 := hX (M + 1) (by omega)
      rw [eval_simpleForm I h, haz, I.pw_int] at h1
      rw [h1]
      have h2 : (((M + 1 : ℕ) : K) - 1) = (M : K) := by push_cast; ring
      rw [h2, ih, mul_zpow, ← zpow_mul, ← zpow_mul, ← mul_assoc]
      have h3 : (∑ i ∈ Finset.range (M + 1), z ^ i : ℤ) = (∑ i ∈ Finset.range M, z ^ i : ℤ) * z + 1 := by
        rw [Finset.sum_range_succ', Finset.sum_mul]
        simp [pow_succ]
      rw [h3, zpow_add₀ hcK, zpow_one, mul_comm (c : K), pow_succ]
  rw [hgeom, hpow, I.pw_int, I.pw_int, ← key]

/-- The solution for the initial condition `x(k) = h`. -/
theorem eval_simpleOnIC (n : String) (c a : ℚ) (k : ℕ) {h : Expr} (hb : hasSumOrProd h = false)
    (hs : isScalarRep n h = true) (X : K → K) (ρ : String → K) (hh : eval (withX I X) ρ h = X k) (N : ℕ) (hN : k ≤ N) :
    eval (withX I X) (update ρ n (N : K)) (simpleOnIC n c a k h)
      = eval (withX I fun t => X (t + k)) (update ρ n ((N - k : ℕ) : K)) (simpleSolution n c a) := by
  unfold simpleOnIC
  have hsol : x0ok n h (simpleSolution n c a) = true := by
    unfold simpleSolution subE negE
    refine x0ok_mulE (x0ok_powE (by simp [x0ok]) (x0ok_mulE (x0ok_addE (x0ok_powE (by simp [x0ok]) (by simp [x0ok]))
      (x0ok_mulE (by simp [x0ok]) (by simp [x0ok]))) (x0ok_powE (x0ok_addE (by simp [x0ok])
      (x0ok_mulE (by simp [x0ok]) (by simp [x0ok]))) (by simp [x0ok])))) (x0ok_powE (by simp [x0ok])
      (x0ok_powE (by simp [x0ok]) (by simp [x0ok])))
  have hnb : hasSumOrProd (simpleSolution n c a) = false := by
    unfold simpleSolution
    refine nb_mulE (nb_powE (nb_num _) (nb_mulE (nb_subE (nb_powE (nb_num _) (nb_sym _)) (nb_num _))
      (nb_powE (nb_subE (nb_num _) (nb_num _)) (nb_num _)))) (nb_powE (by simp [hasSumOrProd])
      (nb_powE (nb_num _) (nb_sym _)))
  rw [C18_substitute_binderfree _ _ _ _ (nb_substitute hb hnb), eval_subE]
  simp only [eval, update_self]
  have hv : (N : K) - (((k : ℕ) : ℚ) : K) = ((N - k : ℕ) : K) := by
    rw [Nat.cast_sub hN]; push_cast; rfl
  rw [hv, Function.update_idem]
  refine eval_subst_x0 X (fun t => X (t + k)) hsol _ ?_
  rw [C20_scalar_sound _ n h hs, hh]
  simp

/-- **C33**, the initial condition `x(k) = h` with `k ≥ 1`, integer exponent: the expression has the value of every
sequence with that value at `k` and satisfying the recurrence from `k + 1` on. -/
theorem C33_simple_integer_ic {n : String} {rhs : Expr} {c a : ℚ} (h : simpleForm n rhs = some (c, a))
    (ha : a.den = 1) (ha1 : a ≠ 1) (hc : c ≠ 0) (k : ℕ) {v : Expr} (hb : hasSumOrProd v = false)
    (hs : isScalarRep n v = true) (ρ : String → K) (X : K → K) (hv : eval (withX I X) ρ v = X k)
    (hX : SolvesAt I n rhs ρ X (k + 1)) (N : ℕ) (hN : k ≤ N) :
    eval (withX I X) (update ρ n (N : K)) (simpleOnIC n c a k v) = X N := by
  rw [eval_simpleOnIC I n c a k hb hs X ρ hv N hN,
    C33_simple_integer I h ha ha1 hc ρ (fun t => X (t + k))]
  · show X (((N - k : ℕ) : K) + k) = X N
    rw [Nat.cast_sub hN]; simp
  · intro M hM
    have h1 := hX (M + k) (by omega)
    rw [eval_simpleForm I h] at h1 ⊢
    show X ((M : K) + k) = c * I.pw (X ((M : K) - 1 + k)) a
    rw [show ((M : K) - 1 + k) = ((M + k : ℕ) : K) - 1 by push_cast; ring, ← h1]
    push_cast; rfl

end

/-! ## Real values -/

/-- The usual real meaning of powers, logarithms and Napier's number. -/
structure RealLog (I : Interp ℝ) : Prop where
  pw : ∀ a b : ℝ, 0 < a → I.pw a b = a ^ b
  log : ∀ a : ℝ, 0 < a → I.fn .log [a] = Real.log a
  napier : I.const "Napier" = Real.exp 1

section
variable {I : Interp ℝ} (hI : RealLog I)
include hI

/-- **C33**, `x(n) = c x(n-1)^a` with rational `a ≠ 1`, positive `c` and `x(0)`. -/
theorem C33_simple_positive {n : String} {rhs : Expr} {c a : ℚ} (h : simpleForm n rhs = some (c, a))
    (ha1 : a ≠ 1) (hc : 0 < c) (ρ : String → ℝ) (X : ℝ → ℝ) (hX0 : 0 < X 0)
    (hX : SolvesAt I n rhs ρ X 1) (N : ℕ) :
    eval (withX I X) (update ρ n (N : ℝ)) (simpleSolution n c a) = X N := by
  have hcR : (0 : ℝ) < c := by exact_mod_cast hc
  have haR : (a : ℝ) - 1 ≠ 0 := by rw [sub_ne_zero]; exact_mod_cast ha1
  rw [eval_simpleSolution, hI.pw _ _ hcR, hI.pw _ _ hX0]
  induction N with
  | zero => simp
  | succ N ih =>
    have h1 := hX (N + 1) (by omega)
    rw [eval_simpleForm I h] at h1
    have h2 : (((N + 1 : ℕ) : ℝ) - 1) = (N : ℝ) := by push_cast; ring
    have hp : 0 < (c : ℝ) ^ (((a : ℝ) ^ N - 1) / ((a : ℝ) - 1)) * X 0 ^ ((a : ℝ) ^ N) :=
      mul_pos (Real.rpow_pos_of_pos hcR _) (Real.rpow_pos_of_pos hX0 _)
    rw [h2, ← ih, hI.pw _ _ hp, Real.mul_rpow (Real.rpow_pos_of_pos hcR _).le (Real.rpow_pos_of_pos hX0 _).le,
      ← Real.rpow_mul hcR.le, ← Real.rpow_mul hX0.le, ← pow_succ] at h1
    rw [h1, ← mul_assoc]
    congr 1
    conv_rhs => rw [← Real.rpow_one (c : ℝ), ← Real.rpow_mul hcR.le, one_mul, ← Real.rpow_add hcR]
    congr 1
    field_simp
    ring

theorem C33_simple_positive_ic {n : String} {rhs : Expr} {c a : ℚ} (h : simpleForm n rhs = some (c, a))
    (ha1 : a ≠ 1) (hc : 0 < c) (k : ℕ) {v : Expr} (hb : hasSumOrProd v = false)
    (hs : isScalarRep n v = true) (ρ : String → ℝ) (X : ℝ → ℝ) (hX0 : 0 < X k) (hv : eval (withX I X) ρ v = X k)
    (hX : SolvesAt I n rhs ρ X (k + 1)) (N : ℕ) (hN : k ≤ N) :
    eval (withX I X) (update ρ n (N : ℝ)) (simpleOnIC n c a k v) = X N := by
  rw [eval_simpleOnIC I n c a k hb hs X ρ hv N hN,
    C33_simple_positive hI h ha1 hc ρ (fun t => X (t + k)) (by simpa using hX0)]
  · show X (((N - k : ℕ) : ℝ) + k) = X N
    rw [Nat.cast_sub hN]; simp
  · intro M hM
    have h1 := hX (M + k) (by omega)
    rw [eval_simpleForm I h] at h1 ⊢
    show X ((M : ℝ) + k) = c * I.pw (X ((M : ℝ) - 1 + k)) a
    rw [show ((M : ℝ) - 1 + k) = ((M + k : ℕ) : ℝ) - 1 by push_cast; ring, ← h1]
    push_cast; rfl


/-! ### Products -/

omit hI in
/-- The value of an expression is the product of the values of its factors. -/
theorem eval_factors (J : Interp ℝ) (ρ : String → ℝ) (e : Expr) :
    eval J ρ e = ((factors e).map fun f => eval J ρ f).prod := by
  cases e <;> simp [factors, eval]

omit hI in
theorem log_list_prod (l : List ℝ) (h : ∀ a ∈ l, 0 < a) : 0 < l.prod ∧ (l.map Real.log).sum = Real.log l.prod := by
  induction l with
  | nil => simp
  | cons a l ih =>
    obtain ⟨h1, h2⟩ := ih fun b hb => h b (by simp [hb])
    have h3 := h a (by simp)
    refine ⟨by simpa using mul_pos h3 h1, ?_⟩
    rw [List.map_cons, List.sum_cons, List.prod_cons, h2, Real.log_mul h3.ne' h1.ne']

/-- The sum of the logarithms of positive factors is the logarithm of the product. -/
theorem eval_logSum (k : Expr) (napier : Bool) (κ : ℝ) (hκ : 0 < κ) (hn : napier = true → κ = Real.exp 1)
    (tmp : Expr) (Y : ℝ → ℝ) (ρ : String → ℝ) (hk : eval (withX I Y) ρ k = κ)
    (hpos : ∀ f ∈ factors tmp, 0 < eval (withX I Y) ρ f) :
    0 < eval (withX I Y) ρ tmp ∧
      eval (withX I Y) ρ (logSum k napier tmp) = Real.log (eval (withX I Y) ρ tmp) / Real.log κ := by
  have h1 := log_list_prod ((factors tmp).map fun f => eval (withX I Y) ρ f) (by
    intro a ha
    obtain ⟨f, hf, rfl⟩ := List.mem_map.mp ha
    exact hpos f hf)
  rw [← eval_factors] at h1
  refine ⟨h1.1, ?_⟩
  rw [logSum, eval_foldr_addE, ← h1.2, List.map_map]
  simp only [eval, Rat.cast_zero, zero_add]
  rw [div_eq_mul_inv, ← List.sum_map_mul_right]
  congr 1
  refine List.map_congr_left fun f hf => ?_
  have hlog : ∀ (e : Expr), 0 < eval (withX I Y) ρ e →
      eval (withX I Y) ρ (.fn .log [e]) = Real.log (eval (withX I Y) ρ e) := by
    intro e he
    rw [← hI.log _ he]; simp [eval, withX]
  by_cases hb : napier = true
  · rw [if_pos hb, hn hb, Real.log_exp, hlog f (hpos f hf)]; simp
  · rw [if_neg hb, logE, eval_mulE, eval_powE, hlog f (hpos f hf), hlog k (by rw [hk]; exact hκ), hk]
    have h2 := (withX I Y).pw_int (Real.log κ) (-1)
    simp only [eval, Function.comp]
    congr 1
    simpa using h2

/-- The sequence of the logarithms. -/
noncomputable def logOf (κ : ℝ) (X : ℝ → ℝ) : ℝ → ℝ := fun v => Real.log (X v) / Real.log κ

/-- **C33**: the logarithms (to the base `|a|`) of a positive sequence satisfy the linear recurrence recorded with `x(n) = c x(n-1)^a` exactly where
the sequence satisfies the recurrence. -/
theorem C33_associated {n : String} {rhs : Expr} {c a : ℚ} (h : simpleForm n rhs = some (c, a)) (ha0 : a ≠ 0) (ha1 : |a| ≠ 1) (hc : 0 < c)
    (ρ : String → ℝ) (X : ℝ → ℝ) (hX : ∀ v, 0 < X v) (N : ℝ) :
    eval (withX I X) (update ρ n N) rhs = X N ↔
      eval (withX I (logOf |(a : ℝ)| X)) (update ρ n N) (simpleAssoc n c a) = logOf |(a : ℝ)| X N := by
  have hcR : (0 : ℝ) < c := by exact_mod_cast hc
  have haR : (0 : ℝ) < |(a : ℝ)| := abs_pos.2 (by exact_mod_cast ha0)
  have ha1R : |(a : ℝ)| ≠ 1 := by exact_mod_cast ha1
  have hL : Real.log |(a : ℝ)| ≠ 0 := Real.log_ne_zero_of_pos_of_ne_one haR ha1R
  have hlog : ∀ (Y : ℝ → ℝ) (σ : String → ℝ) (e : Expr), 0 < eval (withX I Y) σ e →
      eval (withX I Y) σ (.fn .log [e]) = Real.log (eval (withX I Y) σ e) := by
    intro Y σ e he
    rw [← hI.log _ he]; simp [eval, withX]
  have e1 : eval (withX I X) (update ρ n N) rhs = c * X (N - 1) ^ (a : ℝ) := by
    rw [eval_simpleForm I h, hI.pw _ _ (hX _)]
  have e2 : eval (withX I (logOf |(a : ℝ)| X)) (update ρ n N) (simpleAssoc n c a)
      = a * logOf |(a : ℝ)| X (N - 1) + Real.log c / Real.log |(a : ℝ)| := by
    have h3 : eval (withX I (logOf |(a : ℝ)| X)) (update ρ n N) (.fn .log [.num |a|]) = Real.log |(a : ℝ)| := by
      rw [hlog _ _ _ (by simpa [eval] using haR.ne')]
      simp [eval]
    have h4 : eval (withX I (logOf |(a : ℝ)| X)) (update ρ n N) (.fn .log [.num c]) = Real.log c := by
      rw [hlog _ _ _ (by simpa [eval] using hcR)]
      simp [eval]
    rw [simpleAssoc, eval_addE, eval_mulE, logE, eval_mulE, eval_powE, h3, h4]
    have h5 := (withX I (logOf |(a : ℝ)| X)).pw_int (Real.log |(a : ℝ)|) (-1)
    have h6 : eval (withX I (logOf |(a : ℝ)| X)) (update ρ n N) (.fn .x [.add [.sym n, .num (-1)]]) = logOf |(a : ℝ)| X (N - 1) := by
      simp [eval, withX, sub_eq_add_neg]
    rw [h6, div_eq_mul_inv]
    simp only [eval]
    congr 2
    simpa using h5
  have hpos : (0 : ℝ) < c * X (N - 1) ^ (a : ℝ) := mul_pos hcR (Real.rpow_pos_of_pos (hX _) _)
  have e3 : a * logOf |(a : ℝ)| X (N - 1) + Real.log c / Real.log |(a : ℝ)| = Real.log (c * X (N - 1) ^ (a : ℝ)) / Real.log |(a : ℝ)| := by
    rw [Real.log_mul hcR.ne' (Real.rpow_pos_of_pos (hX _) _).ne', Real.log_rpow (hX _), logOf]
    ring
  rw [e1, e2, e3, logOf]
  constructor
  · intro q; rw [q]
  · intro q
    have := (div_left_inj' hL).1 q
    exact Real.log_injOn_pos (Set.mem_Ioi.2 hpos) (Set.mem_Ioi.2 (hX N)) this

theorem related_exponent {k : Expr} {κ : ℝ} (hκ : 0 < κ) (hκ1 : κ ≠ 1)
    (hk : ∀ (Y : ℝ → ℝ) (ρ : String → ℝ), eval (withX I Y) ρ k = κ) {X : ℝ → ℝ} (hX : ∀ v, 0 < X v) :
    Related I k .exponent X (logOf κ X) := by
  intro v ρ
  rw [hk, hI.pw _ _ hκ, Real.rpow_def_of_pos hκ, logOf, mul_div_cancel₀, Real.exp_log (hX v)]
  exact Real.log_ne_zero_of_pos_of_ne_one hκ hκ1

theorem related_log {k : Expr} {κ : ℝ} (hκ : 0 < κ)
    (hk : ∀ (Y : ℝ → ℝ) (ρ : String → ℝ), eval (withX I Y) ρ k = κ) {X : ℝ → ℝ} (hX : ∀ v, 0 < X v) :
    Related I k .argumentLog (logOf κ X) X := by
  intro v ρ
  rw [hk, hI.log _ (hX v), hI.log _ hκ, logOf]
  have := I.pw_int (Real.log κ) (-1)
  rw [div_eq_mul_inv]
  congr 1
  simpa using this

/-- **C33**, the linearization.  A positive sequence satisfies the product recurrence exactly when its logarithms
satisfy the linear recurrence that the code builds. -/
theorem C105_linearization (n : String) (ρ : String → ℝ) (rhs k : Expr) (napier : Bool) (hx : xflat rhs = true) {κ : ℝ}
    (hκ : 0 < κ) (hκ1 : κ ≠ 1) (hn : napier = true → κ = Real.exp 1)
    (hk : ∀ (Y : ℝ → ℝ) (ρ : String → ℝ), eval (withX I Y) ρ k = κ)
    (X : ℝ → ℝ) (hX : ∀ v, 0 < X v) (start : ℕ)
    (hpos : ∀ N : ℕ, start ≤ N → ∀ f ∈ factors (substX k .exponent rhs),
      0 < eval (withX I (logOf κ X)) (update ρ n (N : ℝ)) f) :
    SolvesAt I n rhs ρ X start ↔
      SolvesAt I n (logSum k napier (substX k .exponent rhs)) ρ (logOf κ X) start := by
  have hlog : Real.log κ ≠ 0 := Real.log_ne_zero_of_pos_of_ne_one hκ hκ1
  refine forall_congr' fun N => forall_congr' fun hN => ?_
  obtain ⟨h1, h2⟩ := eval_logSum hI k napier κ hκ hn _ (logOf κ X) (update ρ n (N : ℝ)) (hk _ _) (hpos N hN)
  rw [h2]
  rw [eval_substX I k .exponent X (logOf κ X) (related_exponent hI hκ hκ1 hk hX) rhs hx] at h1 ⊢
  rw [logOf, div_left_inj' hlog]
  exact ⟨fun h => by rw [h], fun h => Real.log_injOn_pos (hX _) h1 h⟩

/-- Coming back from the logarithms. -/
theorem eval_backSolution (n : String) (ρ : String → ℝ) (k sol : Expr) (hs : sol ≠ .num 0) (hx : xflat (powE k sol) = true)
    {κ : ℝ} (hκ : 0 < κ) (hκ1 : κ ≠ 1) (hk : ∀ (Y : ℝ → ℝ) (ρ : String → ℝ), eval (withX I Y) ρ k = κ)
    (X : ℝ → ℝ) (hX : ∀ v, 0 < X v) (v : ℝ) (N : ℝ)
    (hv : eval (withX I (logOf κ X)) (update ρ n v) sol = logOf κ X N) :
    eval (withX I X) (update ρ n v) (backSolution k sol) = X N := by
  rw [backSolution, if_neg hs,
    eval_substX I k .argumentLog (logOf κ X) X (related_log hI hκ hk hX) _ hx, eval_powE, hv]
  have := related_exponent hI hκ hκ1 hk hX N ρ
  rw [hk] at this
  rw [hk]
  exact this

omit hI in
theorem xflat_powE {a b : Expr} (ha : xflat a = true) (hb : xflat b = true) : xflat (powE a b) = true := by
  cases a <;> cases b <;> simp only [powE] <;> (try split) <;> (try split) <;> simp_all [xflat]

/-- **C33**, products (what the code guarantees).  If the exponents have a positive common exponent, the sequence and
all the factors are positive, and `sol` solves the associated linear recurrence, then the returned expression has the
value of the sequence.  Missing from the full property: negative common exponents (refuted below). -/
theorem C105_product_partial (n : String) (ρ : String → ℝ) (l : List Expr) (hx : xflat (.mul l) = true)
    (hce : 0 < commonExponent l) (X : ℝ → ℝ) (hX : ∀ v, 0 < X v) (f k : ℕ)
    (hsolve : SolvesAt I n (.mul l) ρ X (f + k))
    (hpos : ∀ (Y : ℝ → ℝ) (N : ℕ), f + k ≤ N → ∀ g ∈ factors (substX (rewriteMul l).base .exponent (.mul l)),
      0 < eval (withX I Y) (update ρ n (N : ℝ)) g)
    (sol : Expr) (hsx : xflat sol = true) (hs : sol ≠ .num 0)
    (hsol : IsSolution I n (rewriteMul l).rhs ρ sol f k) (N : ℕ) (hN : f ≤ N) :
    eval (withX I X) (update ρ n (N : ℝ)) (backSolution (rewriteMul l).base sol) = X N := by
  by_cases h1 : commonExponent l = 1
  · have hb : rewriteMul l = ⟨0, .const "Napier", logSum (.const "Napier") true
        (substX (.const "Napier") .exponent (.mul l))⟩ := by simp [rewriteMul, h1]
    rw [hb] at hsol hpos ⊢
    have hk : ∀ (Y : ℝ → ℝ) (ρ : String → ℝ), eval (withX I Y) ρ (.const "Napier") = Real.exp 1 := by
      intro Y ρ; rw [← hI.napier]; simp [eval, withX]
    have hκ1 : Real.exp 1 ≠ 1 := by simp
    refine eval_backSolution hI n ρ _ sol hs (xflat_powE (by simp [xflat]) hsx) (Real.exp_pos 1) hκ1 hk X hX _ _ ?_
    refine hsol (logOf (Real.exp 1) X) ?_ N hN
    exact (C105_linearization hI n ρ (.mul l) _ true hx (Real.exp_pos 1) hκ1 (fun _ => rfl) hk X hX (f + k)
      fun M hM g hg => hpos _ M hM g hg).mp hsolve
  · have hb : rewriteMul l = ⟨0, .num (commonExponent l), logSum (.num (commonExponent l)) false
        (substX (.num (commonExponent l)) .exponent (.mul l))⟩ := by simp [rewriteMul, h1, abs_of_pos hce]
    rw [hb] at hsol hpos ⊢
    have hk : ∀ (Y : ℝ → ℝ) (ρ : String → ℝ), eval (withX I Y) ρ (.num (commonExponent l)) = (commonExponent l : ℝ) := by
      intro Y ρ; simp [eval]
    have hκ : (0 : ℝ) < (commonExponent l : ℝ) := by exact_mod_cast hce
    have hκ1 : (commonExponent l : ℝ) ≠ 1 := by exact_mod_cast h1
    refine eval_backSolution hI n ρ _ sol hs (xflat_powE (by simp [xflat]) hsx) hκ hκ1 hk X hX _ _ ?_
    refine hsol (logOf _ X) ?_ N hN
    exact (C105_linearization hI n ρ (.mul l) _ false hx hκ hκ1 (by simp) hk X hX (f + k)
      fun M hM g hg => hpos _ M hM g hg).mp hsolve


/-- The factors for which the positivity hypothesis is evident: positive numbers, positive parameters, `n`, powers of
the latter, and powers of the unknown. -/
inductive GoodFactor (n : String) (ρ : String → ℝ) : Expr → Prop
  | num {c : ℚ} : 0 < c → GoodFactor n ρ (.num c)
  | sym {s : String} : 0 < ρ s → GoodFactor n ρ (.sym s)
  | n : GoodFactor n ρ (.sym n)
  | npow (q : ℚ) : GoodFactor n ρ (.pow (.sym n) (.num q))
  | x (a : Expr) : GoodFactor n ρ (.fn .x [a])
  | xpow (a : Expr) (q : ℚ) : GoodFactor n ρ (.pow (.fn .x [a]) (.num q))

omit hI in
theorem factors_mulE_pos (J : Interp ℝ) (ρ : String → ℝ) {a b : Expr} (ha : ∀ f ∈ factors a, 0 < eval J ρ f)
    (hb : ∀ f ∈ factors b, 0 < eval J ρ f) : ∀ f ∈ factors (mulE a b), 0 < eval J ρ f := by
  cases a <;> cases b <;> simp only [mulE] <;> (try split) <;> (try split) <;>
    simp_all [factors, eval, or_imp]

omit hI in
theorem factors_powE_pos (J : Interp ℝ) (ρ : String → ℝ) {a b : Expr} (ha : ∀ f ∈ factors a, 0 < eval J ρ f)
    (h : 0 < eval J ρ (powE a b)) : ∀ f ∈ factors (powE a b), 0 < eval J ρ f := by
  cases a <;> cases b <;> simp only [powE] at h ⊢ <;> (try split) <;> (try split) <;>
    simp_all [factors, eval]

theorem goodFactor_pos {n : String} {ρ : String → ℝ} {k : Expr} {κ : ℝ} (hκ : 0 < κ) (hkm : ∀ m, k ≠ .mul m)
    (hk : ∀ (Y : ℝ → ℝ) (ρ : String → ℝ), eval (withX I Y) ρ k = κ) (Y : ℝ → ℝ) {v : ℝ} (hv : 0 < v) {e : Expr}
    (he : GoodFactor n ρ e) :
    ∀ g ∈ factors (substX k .exponent e), 0 < eval (withX I Y) (update ρ n v) g := by
  have hpw : ∀ a b : ℝ, 0 < a → 0 < (withX I Y).pw a b := by
    intro a b ha
    show 0 < I.pw a b
    rw [hI.pw _ _ ha]
    exact Real.rpow_pos_of_pos ha _
  have hkf : ∀ f ∈ factors k, 0 < eval (withX I Y) (update ρ n v) f := by
    have h0 : factors k = [k] := by
      cases k <;> simp [factors]
      exact absurd rfl (hkm _)
    intro f hf
    rw [h0, List.mem_singleton] at hf
    rw [hf, hk]; exact hκ
  have hkx : ∀ a, ∀ f ∈ factors (powE k (.fn .x [a])), 0 < eval (withX I Y) (update ρ n v) f := fun a =>
    factors_powE_pos _ _ hkf (by rw [eval_powE, hk]; exact hpw _ _ hκ)
  have hnf : ∀ f ∈ factors (.sym n), 0 < eval (withX I Y) (update ρ n v) f := by simpa [factors, eval] using hv
  cases he with
  | num h => simpa [substX, factors, eval] using h
  | @sym s h =>
    by_cases hs : s = n
    · subst hs; rw [substX]; exact hnf; all_goals simp
    · simpa [substX, factors, eval, update_of_ne hs] using h
  | n => rw [substX]; exact hnf; all_goals simp
  | npow q =>
    simp only [substX]
    exact factors_powE_pos _ _ hnf (by rw [eval_powE]; exact hpw _ _ (by simpa [eval] using hv))
  | x a => simp only [substX, if_true, xTo]; exact hkx a
  | xpow a q =>
    simp only [substX, if_true, xTo]
    exact factors_powE_pos _ _ (hkx a) (by rw [eval_powE, eval_powE, hk]; exact hpw _ _ (hpw _ _ hκ))

/-- **C33**, products of positive constants, positive parameters, powers of `n` and powers of the unknown with a
positive common exponent. -/
theorem C105_product_factors_partial (n : String) (ρ : String → ℝ) (l : List Expr) (hx : xflat (.mul l) = true)
    (hl : ∀ a ∈ l, GoodFactor n ρ a)
    (hce : 0 < commonExponent l) (X : ℝ → ℝ) (hX : ∀ v, 0 < X v) (f k : ℕ) (hk0 : 0 < k)
    (hsolve : SolvesAt I n (.mul l) ρ X (f + k))
    (sol : Expr) (hsx : xflat sol = true) (hs : sol ≠ .num 0)
    (hsol : IsSolution I n (rewriteMul l).rhs ρ sol f k) (N : ℕ) (hN : f ≤ N) :
    eval (withX I X) (update ρ n (N : ℝ)) (backSolution (rewriteMul l).base sol) = X N := by
  refine C105_product_partial hI n ρ l hx hce X hX f k hsolve ?_ sol hsx hs hsol N hN
  intro Y N hN
  have hN0 : (0 : ℝ) < N := by exact_mod_cast (by omega : 0 < N)
  obtain ⟨κ, hκ, hkm, hk⟩ : ∃ κ : ℝ, 0 < κ ∧ (∀ m, (rewriteMul l).base ≠ .mul m) ∧
      ∀ (Y : ℝ → ℝ) (ρ : String → ℝ), eval (withX I Y) ρ (rewriteMul l).base = κ := by
    by_cases h1 : commonExponent l = 1
    · refine ⟨Real.exp 1, Real.exp_pos 1, by simp [rewriteMul, h1], fun Y ρ => ?_⟩
      simp only [rewriteMul, h1, if_true, eval, ← hI.napier]
      rfl
    · refine ⟨(commonExponent l : ℝ), by exact_mod_cast hce, by simp [rewriteMul, h1], fun Y ρ => ?_⟩
      simp [rewriteMul, h1, eval]
  rw [substX]
  have : ∀ l' : List Expr, (∀ a ∈ l', GoodFactor n ρ a) →
      ∀ g ∈ factors (l'.foldr (fun a acc => mulE acc (substX (rewriteMul l).base .exponent a)) (.num 1)),
        0 < eval (withX I Y) (update ρ n (N : ℝ)) g := by
    intro l' hl'
    induction l' with
    | nil => simp [factors, eval]
    | cons a l' ih =>
      exact factors_mulE_pos _ _ (ih fun b hb => hl' b (by simp [hb]))
        (goodFactor_pos hI hκ hkm hk Y hN0 (hl' a (by simp)))
  exact this l hl


/-! ### A family of examples: `x(n) = a x(n-1)^q` with a parameter `a` -/

omit hI in
/-- `a x(n-1)^q`. -/
def famL (q : ℚ) : List Expr := [.sym "a", .pow (.fn .x [.add [.sym "n", .num (-1)]]) (.num q)]

omit hI in
/-- `q^n (x(0) + A/(q-1)) - A/(q-1)` with `A = log(a)/log(b)`. -/
def famSol (q b : ℚ) : Expr :=
  .add [.mul [.pow (.num q) (.sym "n"), .add [.fn .x [.num 0], .mul [.num (1 / (q - 1)), logE (.num b) (.sym "a")]]],
    .mul [.num (-(1 / (q - 1))), logE (.num b) (.sym "a")]]

omit hI in
theorem xflat_logE (b : ℚ) : xflat (logE (.num b) (.sym "a")) = true := by
  have : logE (.num b) (.sym "a") = .mul [.fn .log [.sym "a"], .pow (.fn .log [.num b]) (.num (-1))] := by
    have h : powE (.fn .log [.num b]) (.num (-1)) = .pow (.fn .log [.num b]) (.num (-1)) := by
      simp only [powE]; norm_num
    rw [logE, h]; rfl
  rw [this]; simp [xflat]

omit hI in
theorem xflat_famSol (q b : ℚ) : xflat (famSol q b) = true := by
  simp [famSol, xflat, hasX, xflat_logE]

theorem fam_logE {b : ℚ} (hb : 0 < b) (Y : ℝ → ℝ) (ρ : String → ℝ) (hρ : 0 < ρ "a") :
    eval (withX I Y) ρ (logE (.num b) (.sym "a")) = Real.log (ρ "a") / Real.log b := by
  have hbR : (0 : ℝ) < b := by exact_mod_cast hb
  rw [logE, eval_mulE, eval_powE]
  have h2 := (withX I Y).pw_int (Real.log b) (-1)
  simp only [eval, List.map_cons, List.map_nil, fn_log]
  rw [hI.log _ hρ, hI.log _ hbR, div_eq_mul_inv]
  congr 1
  simpa using h2

theorem fam_isSolution {q b : ℚ} (hq : q ≠ 1) (hb : 0 < b) (hb1 : b ≠ 1) (ρ : String → ℝ) (hρ : 0 < ρ "a") :
    IsSolution I "n" (logSum (.num b) false (substX (.num b) .exponent (.mul (famL q)))) ρ (famSol q b) 0 1 := by
  have hbR : (0 : ℝ) < b := by exact_mod_cast hb
  have hb1R : (b : ℝ) ≠ 1 := by exact_mod_cast hb1
  have hlog : Real.log (b : ℝ) ≠ 0 := Real.log_ne_zero_of_pos_of_ne_one hbR hb1R
  have hqR : (q : ℝ) - 1 ≠ 0 := by rw [sub_ne_zero]; exact_mod_cast hq
  intro Y hY N _
  have hstep : ∀ M : ℕ, Y ((M + 1 : ℕ) : ℝ) = Real.log (ρ "a") / Real.log b + q * Y M := by
    intro M
    rw [hY (M + 1) (by omega)]
    have hgood : ∀ f ∈ factors (substX (.num b) .exponent (.mul (famL q))),
        0 < eval (withX I Y) (update ρ "n" ((M + 1 : ℕ) : ℝ)) f := by
      have hk : ∀ (Y : ℝ → ℝ) (ρ : String → ℝ), eval (withX I Y) ρ (.num b) = (b : ℝ) := fun _ _ => by simp [eval]
      have hv : (0 : ℝ) < ((M + 1 : ℕ) : ℝ) := by positivity
      rw [famL, substX]
      exact factors_mulE_pos _ _ (factors_mulE_pos _ _ (by simp [factors, eval])
        (goodFactor_pos hI hbR (by simp) hk Y hv (.xpow _ _))) (goodFactor_pos hI hbR (by simp) hk Y hv (.sym hρ))
    rw [(eval_logSum hI (.num b) false b hbR (by simp) _ Y _ (by simp [eval]) hgood).2]
    have hv : eval (withX I Y) (update ρ "n" ((M + 1 : ℕ) : ℝ)) (substX (.num b) .exponent (.mul (famL q)))
        = ((b : ℝ) ^ Y M) ^ (q : ℝ) * ρ "a" := by
      simp only [famL, substX, List.foldr_cons, List.foldr_nil, if_true, xTo, eval_mulE, eval_powE, eval_x]
      simp only [eval, List.map_cons, List.map_nil, List.sum_cons, List.sum_nil, update_self]
      rw [update_of_ne (by decide)]
      show ((1 : ℚ) : ℝ) * I.pw (I.pw (b : ℝ) (Y (((M + 1 : ℕ) : ℝ) + (((-1 : ℚ)) + 0)))) (q : ℝ) * ρ "a" = _
      rw [hI.pw _ _ hbR, hI.pw _ _ (Real.rpow_pos_of_pos hbR _)]
      have : (((M + 1 : ℕ) : ℝ) + ((((-1 : ℚ)) : ℝ) + 0)) = M := by push_cast; ring
      rw [this]
      simp
    rw [hv, Real.log_mul (Real.rpow_pos_of_pos (Real.rpow_pos_of_pos hbR _) _).ne' hρ.ne',
      Real.log_rpow (Real.rpow_pos_of_pos hbR _), Real.log_rpow hbR]
    field_simp
    ring
  have hval : ∀ M : ℕ, eval (withX I Y) (update ρ "n" (M : ℝ)) (famSol q b)
      = (q : ℝ) ^ M * (Y 0 + 1 / (q - 1) * (Real.log (ρ "a") / Real.log b))
        + -(1 / (q - 1)) * (Real.log (ρ "a") / Real.log b) := by
    intro M
    have h1 : (update ρ "n" (M : ℝ)) "a" = ρ "a" := update_of_ne (by decide) _ _
    have h2 := fam_logE hI hb Y (update ρ "n" (M : ℝ)) (by rw [h1]; exact hρ)
    rw [h1] at h2
    simp only [famSol, eval, List.map_cons, List.map_nil, List.sum_cons, List.sum_nil, List.prod_cons, List.prod_nil,
      update_self, h2]
    show I.pw (q : ℝ) (M : ℝ) * ((Y ((0 : ℚ) : ℝ) + _) * _) + _ = _
    rw [pw_nat]
    push_cast
    ring
  rw [hval]
  induction N with
  | zero => simp
  | succ N ih =>
    rw [hstep N, ← ih (by omega), pow_succ]
    field_simp
    ring

/-- The hypotheses of `C105_product_factors_partial` are met: every positive sequence with `x(n) = a x(n-1)^2`. -/
example (ρ : String → ℝ) (hρ : 0 < ρ "a") (X : ℝ → ℝ) (hX : ∀ v, 0 < X v)
    (hsolve : SolvesAt I "n" (.mul (famL 2)) ρ X 1) (N : ℕ) :
    eval (withX I X) (update ρ "n" (N : ℝ)) (backSolution (.num 2) (famSol 2 2)) = X N := by
  have hce : commonExponent (famL 2) = 2 := by
    simp [famL, commonExponent, lcmNum]
  have hb : (rewriteMul (famL 2)).base = .num 2 := by simp [rewriteMul, hce]
  have hr : (rewriteMul (famL 2)).rhs = logSum (.num 2) false (substX (.num 2) .exponent (.mul (famL 2))) := by
    simp [rewriteMul, hce]
  rw [← hb]
  refine C105_product_factors_partial hI "n" ρ (famL 2) (by simp [famL, xflat, hasX]) ?_ (by rw [hce]; norm_num) X hX 0 1
    (by norm_num) hsolve (famSol 2 2) (xflat_famSol 2 2) (by simp [famSol]) ?_ N (by omega)
  · intro a ha
    simp only [famL, List.mem_cons, List.not_mem_nil, or_false] at ha
    rcases ha with rfl | rfl
    · exact .sym hρ
    · exact .xpow _ _
  · rw [hr]; exact fam_isSolution hI (by norm_num) (by norm_num) (by norm_num) ρ hρ

/-- A positive sequence with `x(n) = 2 x(n-1)^(-1/2)`, `x(0) = 1`. -/
theorem fam_seq_exists : ∃ X : ℝ → ℝ, (∀ v, 0 < X v) ∧ X 0 = 1 ∧ X 1 = 2 ∧
    SolvesAt I "n" (.mul (famL (-1/2))) (fun _ => 2) X 1 := by
  let E : ℕ → ℝ := fun M => 2 / 3 * (1 - (-1/2) ^ M)
  refine ⟨fun v => (2 : ℝ) ^ (E ⌊v⌋₊), fun v => Real.rpow_pos_of_pos (by norm_num) _, by simp [E], ?_, ?_⟩
  · norm_num [E]
  · intro N hN
    obtain ⟨M, rfl⟩ : ∃ M, N = M + 1 := ⟨N - 1, by omega⟩
    have hv : ∀ X : ℝ → ℝ, eval (withX I X) (update (fun _ => 2) "n" ((M + 1 : ℕ) : ℝ)) (.mul (famL (-1/2)))
        = 2 * I.pw (X M) ((-1/2 : ℚ) : ℝ) := by
      intro X
      simp only [famL, eval, List.map_cons, List.map_nil, List.sum_cons, List.sum_nil, List.prod_cons, List.prod_nil,
        update_self]
      rw [update_of_ne (by decide)]
      show (2 : ℝ) * (I.pw (X (((M + 1 : ℕ) : ℝ) + ((((-1 : ℚ)) : ℝ) + 0))) _ * 1) = _
      have : (((M + 1 : ℕ) : ℝ) + ((((-1 : ℚ)) : ℝ) + 0)) = M := by push_cast; ring
      rw [this, mul_one]
    rw [hv]
    show (2 : ℝ) ^ (E ⌊((M + 1 : ℕ) : ℝ)⌋₊) = 2 * I.pw ((2 : ℝ) ^ (E ⌊(M : ℝ)⌋₊)) ((-1/2 : ℚ) : ℝ)
    have h2 : (0 : ℝ) < 2 := by norm_num
    rw [hI.pw _ _ (Real.rpow_pos_of_pos h2 _), ← Real.rpow_mul h2.le, Nat.floor_natCast, Nat.floor_natCast]
    conv_rhs => rw [show (2 : ℝ) * 2 ^ (E M * ((-1/2 : ℚ) : ℝ)) = 2 ^ (1 : ℝ) * 2 ^ (E M * ((-1/2 : ℚ) : ℝ)) by
      rw [Real.rpow_one], ← Real.rpow_add h2]
    congr 1
    simp only [E, pow_succ]
    push_cast
    ring

/-- **C33** is false for negative exponents that are not integers: the linear recurrence is built with the base
`|a|`, the solution with the base `a`.  For `x(n) = a x(n-1)^(-1/2)`, `a = 2`, `x(0) = 1`, the returned expression is
`-2` at `n = 1`, where the sequence is `2`, although the linear recurrence is solved correctly. -/
theorem C105_negative_exponent_refuted :
    ∃ (X : ℝ → ℝ) (sol : Expr), (∀ v, 0 < X v) ∧ SolvesAt I "n" (.mul (famL (-1/2))) (fun _ => 2) X 1 ∧
      IsSolution I "n" (rewriteMul (famL (-1/2))).rhs (fun _ => 2) sol 0 1 ∧
      eval (withX I X) (update (fun _ => 2) "n" ((1 : ℕ) : ℝ)) (backSolution (rewriteMul (famL (-1/2))).base sol) = -2 ∧
      X (1 : ℕ) = 2 := by
  obtain ⟨X, hX, hX0, hX1, hs⟩ := fam_seq_exists hI
  have hce : commonExponent (famL (-1/2)) = -1/2 := by
    show lcmNum (-1/2) 1 = -1/2
    rw [lcmNum, if_neg]
    · norm_num
    · intro h
      have h1 := h.1
      revert h1
      norm_num
  have hb : (rewriteMul (famL (-1/2))).base = .num (-1/2) := by
    simp only [rewriteMul, hce]; norm_num
  have hab : |(-1/2 : ℚ)| = 1/2 := by norm_num [abs]
  have hr : (rewriteMul (famL (-1/2))).rhs
      = logSum (.num (1/2)) false (substX (.num (1/2)) .exponent (.mul (famL (-1/2)))) := by
    simp only [rewriteMul, hce, hab]; norm_num
  refine ⟨X, famSol (-1/2) (1/2), hX, hs, ?_, ?_, by simpa using hX1⟩
  · rw [hr]
    exact fam_isSolution hI (by norm_num) (by norm_num) (by norm_num) _ (by norm_num)
  · rw [hb, backSolution, if_neg (by simp [famSol])]
    let Y : ℝ → ℝ := fun v => I.fn .log [X v] * I.pw (I.fn .log [((-1/2 : ℚ) : ℝ)]) (-1)
    have hrel : Related I (.num (-1/2)) .argumentLog Y X := by
      intro v ρ
      simp [eval, Y]
    rw [eval_substX I _ .argumentLog Y X hrel _ (xflat_powE (by simp [xflat]) (xflat_famSol _ _)), eval_powE]
    have hY0 : Y 0 = 0 := by
      simp only [Y, hX0]
      rw [hI.log _ one_pos]; simp
    have hval : eval (withX I Y) (update (fun _ => 2) "n" ((1 : ℕ) : ℝ)) (famSol (-1/2) (1/2)) = -1 := by
      have h1 : (update (fun _ => (2 : ℝ)) "n" ((1 : ℕ) : ℝ)) "a" = 2 := update_of_ne (by decide) _ _
      have h2 := fam_logE hI (b := 1/2) (by norm_num) Y (update (fun _ => 2) "n" ((1 : ℕ) : ℝ)) (by rw [h1]; norm_num)
      rw [h1] at h2
      have h3 : Real.log 2 / Real.log ((1/2 : ℚ) : ℝ) = -1 := by
        push_cast
        rw [one_div, Real.log_inv, div_neg, div_self (Real.log_ne_zero_of_pos_of_ne_one (by norm_num) (by norm_num))]
      simp only [famSol, eval, List.map_cons, List.map_nil, List.sum_cons, List.sum_nil, List.prod_cons, List.prod_nil,
        update_self, h2, h3]
      show I.pw ((-1/2 : ℚ) : ℝ) ((1 : ℕ) : ℝ) * ((Y ((0 : ℚ) : ℝ) + _) * _) + _ = _
      rw [pw_nat, Rat.cast_zero, hY0]
      push_cast
      norm_num
    rw [hval]
    have h4 := (withX I Y).pw_int ((-1/2 : ℚ) : ℝ) (-1)
    simp only [eval]
    push_cast at h4 ⊢
    rw [h4]
    norm_num

end

/-! ## Powers of the unknown: `x(n) = x(arg)^a`, complex logarithms -/

/-- The usual complex meaning of powers and logarithms. -/
structure ComplexLog (I : Interp ℂ) : Prop where
  pw : ∀ a b : ℂ, a ≠ 0 → I.pw a b = a ^ b
  log : ∀ a : ℂ, a ≠ 0 → I.fn .log [a] = Complex.log a

/-- **C33**, `x(n) = x(arg)^a` for a rational `a` other than `0` and `1`, positive or negative: if `sol` solves the linear recurrence
that the code builds, then the returned expression has the value of the (positive) sequence. -/
theorem C105_power {I : Interp ℂ} (hI : ComplexLog I) (n : String) (ρ : String → ℂ) (a : ℚ) (ha0 : a ≠ 0) (ha1 : a ≠ 1)
    (arg : Expr) (X : ℂ → ℂ) (hX : ∀ v, ∃ r : ℝ, 0 < r ∧ X v = r) (harg : hasX arg = false) (f k : ℕ)
    (hsolve : SolvesAt I n (.pow (.fn .x [arg]) (.num a)) ρ X (f + k))
    (sol : Expr) (hsx : xflat sol = true) (hs : sol ≠ .num 0)
    (hsol : IsSolution I n (rewritePow a arg).rhs ρ sol f k) (N : ℕ) (hN : f ≤ N) :
    eval (withX I X) (update ρ n (N : ℂ)) (backSolution (rewritePow a arg).base sol) = X N := by
  have haC : (a : ℂ) ≠ 0 := by exact_mod_cast ha0
  have hX0 : ∀ v, X v ≠ 0 := by
    intro v
    obtain ⟨r, hr, hv⟩ := hX v
    rw [hv]; exact_mod_cast hr.ne'
  have hlog : Complex.log (a : ℂ) ≠ 0 := by
    intro h
    have h1 := congrArg Complex.exp h
    rw [Complex.exp_log haC, Complex.exp_zero] at h1
    exact ha1 (by exact_mod_cast h1)
  let Y : ℂ → ℂ := fun v => Complex.log (X v) / Complex.log (a : ℂ)
  have hY : SolvesAt I n (rewritePow a arg).rhs ρ Y (f + k) := by
    intro M hM
    have h1 := hsolve M hM
    rw [eval, eval_x, eval_noX I X Y arg harg] at h1
    set w := eval (withX I Y) (update ρ n (M : ℂ)) arg with hw
    have h2 : (withX I X).pw (X w) (eval (withX I X) (update ρ n (M : ℂ)) (.num a)) = X w ^ ((a : ℝ) : ℂ) := by
      show I.pw _ _ = _
      rw [hI.pw _ _ (hX0 w)]; simp [eval]
    rw [h2] at h1
    rw [rewritePow, eval_mulE, eval_x, ← hw]
    show Complex.log (X M) / _ = _ * (Complex.log (X w) / _)
    obtain ⟨r, hr, hv⟩ := hX w
    rw [h1, hv, ← Complex.ofReal_cpow hr.le, ← Complex.ofReal_log (Real.rpow_pos_of_pos hr _).le, Real.log_rpow hr,
      ← Complex.ofReal_log hr.le]
    simp [eval, mul_div_assoc]
  have h3 := hsol Y hY N hN
  have hrel : Related I (.num a) .argumentLog Y X := by
    intro v ρ'
    have := I.pw_int (Complex.log (a : ℂ)) (-1)
    rw [eval, hI.log _ (hX0 v), hI.log _ haC]
    show _ = Complex.log (X v) / Complex.log (a : ℂ)
    rw [div_eq_mul_inv]
    congr 1
    simpa using this
  show eval (withX I X) (update ρ n (N : ℂ)) (backSolution (.num a) sol) = X N
  rw [backSolution, if_neg hs, eval_substX I _ .argumentLog Y X hrel _ (xflat_powE (by simp [xflat]) hsx), eval_powE, h3]
  show I.pw (eval (withX I Y) _ (.num a)) (Complex.log (X N) / Complex.log (a : ℂ)) = X N
  rw [eval, hI.pw _ _ haC, Complex.cpow_def_of_ne_zero haC, mul_div_cancel₀ _ hlog, Complex.exp_log (hX0 N)]

/-! ## The hypotheses can be met -/

/-- The real meaning, with Napier's number. -/
noncomputable def realLogInterp : Interp ℝ :=
  { realInterp 0 with const := fun c => if c = "Napier" then Real.exp 1 else (realInterp 0).const c }

theorem realLogInterp_ok : RealLog realLogInterp where
  pw := fun _ _ _ => rfl
  log := fun _ _ => rfl
  napier := by simp [realLogInterp]

/-- A complex meaning. -/
noncomputable def complexLogInterp : Interp ℂ where
  const := fun _ => 0
  pw := fun a b => a ^ b
  fn := fun f l => match f, l with
    | .log, [z] => Complex.log z
    | _, _ => 0
  bind := fun _ _ _ _ => 0
  pw_int := fun a z => Complex.cpow_intCast a z
  one_pw := fun a => Complex.one_cpow a

theorem complexLogInterp_ok : ComplexLog complexLogInterp where
  pw := fun _ _ _ => rfl
  log := fun _ _ => rfl

/-- `x(n) = -3 x(n-1)^2`, `x(0) = -1`: the sequence `-3^(2^n - 1)` satisfies the hypotheses of
`C33_simple_integer`. -/
example (I : Interp ℝ) (ρ : String → ℝ) (N : ℕ) :
    eval (withX I fun v => -3 ^ (2 ^ ⌊v⌋₊ - 1)) (update ρ "n" (N : ℝ)) (simpleSolution "n" (-3) 2) = -3 ^ (2 ^ N - 1) := by
  have h := C33_simple_integer I (n := "n")
    (rhs := .mul [.num (-3), .pow (.fn .x [.add [.sym "n", .num (-1)]]) (.num 2)]) (c := -3) (a := 2)
    (by simp [simpleForm]) (by norm_num) (by norm_num) (by norm_num) ρ (fun v => -3 ^ (2 ^ ⌊v⌋₊ - 1)) (by
      intro M hM
      obtain ⟨m, rfl⟩ : ∃ m, M = m + 1 := ⟨M - 1, by omega⟩
      rw [eval_simpleForm I (c := -3) (a := 2) (by simp [simpleForm])]
      rw [show (((m + 1 : ℕ) : ℝ) - 1) = (m : ℝ) by push_cast; ring]
      have h2 := I.pw_int (-3 ^ (2 ^ ⌊(m : ℝ)⌋₊ - 1)) 2
      push_cast at h2 ⊢
      rw [h2, show ((m : ℝ) + 1) = ((m + 1 : ℕ) : ℝ) by push_cast; rfl, Nat.floor_natCast, Nat.floor_natCast]
      have h3 : 2 ^ (m + 1) - 1 = 2 * (2 ^ m - 1) + 1 := by
        have := Nat.one_le_two_pow (n := m)
        rw [pow_succ]; omega
      rw [h3, pow_succ, pow_mul', show (2 : ℤ) = ((2 : ℕ) : ℤ) from rfl, zpow_natCast]
      ring) N
  rw [h]
  show -3 ^ (2 ^ ⌊(N : ℝ)⌋₊ - 1) = _
  rw [Nat.floor_natCast]

/-- `x(n) = 4 x(n-1)^(1/2)`, `x(0) = 16` satisfies the hypotheses of `C33_simple_positive`. -/
example (ρ : String → ℝ) (N : ℕ) :
    eval (withX realLogInterp fun _ => 16) (update ρ "n" (N : ℝ)) (simpleSolution "n" 4 (1/2)) = 16 :=
  C33_simple_positive realLogInterp_ok (n := "n")
    (rhs := .mul [.num 4, .pow (.fn .x [.add [.sym "n", .num (-1)]]) (.num (1/2))]) (c := 4) (a := 1/2)
    (by simp [simpleForm]) (by norm_num) (by norm_num) ρ (fun _ => 16) (by norm_num) (by
      intro M _
      rw [eval_simpleForm realLogInterp (c := 4) (a := 1/2) (by simp [simpleForm]), realLogInterp_ok.pw _ _ (by norm_num)]
      have : (16 : ℝ) ^ (((1/2 : ℚ)) : ℝ) = 4 := by
        push_cast
        rw [← Real.sqrt_eq_rpow, show (16 : ℝ) = 4 ^ 2 by norm_num, Real.sqrt_sq (by norm_num)]
      rw [this]; norm_num) N

/-- `x(n) = x(n-1)^(-2)` satisfies the hypotheses of `C105_power`: the linear recurrence is `x(n) = -2 x(n-1)`, with
solution `(-2)^n x(0)`. -/
example (ρ : String → ℂ) (X : ℂ → ℂ) (hX : ∀ v, ∃ r : ℝ, 0 < r ∧ X v = r)
    (hsolve : SolvesAt complexLogInterp "n" (.pow (.fn .x [.add [.sym "n", .num (-1)]]) (.num (-2))) ρ X 1) (N : ℕ) :
    eval (withX complexLogInterp X) (update ρ "n" (N : ℂ))
      (backSolution (.num (-2)) (.mul [.pow (.num (-2)) (.sym "n"), .fn .x [.num 0]])) = X N := by
  refine C105_power complexLogInterp_ok "n" ρ (-2) (by norm_num) (by norm_num) (.add [.sym "n", .num (-1)]) X hX
    (by simp [hasX]) 0 1 hsolve _ (by simp [xflat, hasX]) (by simp) ?_ N (by omega)
  intro Y hY M _
  have hstep : ∀ m : ℕ, Y ((m + 1 : ℕ) : ℂ) = -2 * Y m := by
    intro m
    rw [hY (m + 1) (by omega), rewritePow, eval_mulE, eval_x]
    simp [eval]
  have hval : ∀ m : ℕ, eval (withX complexLogInterp Y) (update ρ "n" (m : ℂ))
      (.mul [.pow (.num (-2)) (.sym "n"), .fn .x [.num 0]]) = (-2) ^ m * Y 0 := by
    intro m
    simp only [eval, List.map_cons, List.map_nil, List.prod_cons, List.prod_nil, update_self]
    show ((((-2 : ℚ)) : ℂ) ^ ((m : ℕ) : ℂ)) * (Y ((0 : ℚ) : ℂ) * 1) = _
    rw [Complex.cpow_natCast]
    push_cast
    ring
  rw [hval]
  induction M with
  | zero => simp
  | succ m ih => rw [hstep, ← ih (by omega), pow_succ]; ring

/-! ## The domain error -/

theorem sin_pi_ne {a : ℚ} (h : a.den ≠ 1) : Real.sin (Real.pi * a) ≠ 0 := by
  intro hs
  obtain ⟨k, hk⟩ := Real.sin_eq_zero_iff.1 hs
  have : (k : ℝ) = a := by
    have := Real.pi_pos.ne'
    field_simp at hk
    exact hk
  have h2 : a = k := by exact_mod_cast this.symm
  rw [h2] at h
  simp at h

/-- Powers of negative numbers. -/
theorem neg_cpow_im {y : ℝ} (hy : y < 0) (a : ℚ) :
    ((y : ℂ) ^ (a : ℂ)).im = (-y) ^ (a : ℝ) * Real.sin (Real.pi * a) := by
  rw [Complex.ofReal_cpow_of_nonpos hy.le]
  have h1 : (-(y : ℂ)) ^ (a : ℂ) = (((-y) ^ (a : ℝ) : ℝ) : ℂ) := by
    rw [Complex.ofReal_cpow (by linarith)]; push_cast; rfl
  have h2 : (Real.pi : ℂ) * Complex.I * (a : ℂ) = ((Real.pi * a : ℝ) : ℂ) * Complex.I := by push_cast; ring
  rw [h1, h2, Complex.im_ofReal_mul, Complex.exp_ofReal_mul_I_im]

/-- **C33** (the answer `domain error`).  `x(n) = c x(n-1)^a` is refused exactly if, for a positive initial condition `x`,
the second value, computed with the principal value of the power, is not a real number. -/
theorem C105_domain_error (c a : ℚ) (x : ℝ) (hx : 0 < x) : simpleDomainError c a = true ↔
    ((c : ℂ) * ((c : ℂ) * (x : ℂ) ^ (a : ℂ)) ^ (a : ℂ)).im ≠ 0 := by
  have h1 : (c : ℂ) * (x : ℂ) ^ (a : ℂ) = (((c : ℝ) * x ^ (a : ℝ) : ℝ) : ℂ) := by
    push_cast; rw [Complex.ofReal_cpow hx.le]; push_cast; rfl
  have hp : (0 : ℝ) < x ^ (a : ℝ) := Real.rpow_pos_of_pos hx _
  have h2 : ∀ z : ℂ, ((c : ℂ) * z).im = (c : ℝ) * z.im := by
    intro z
    have : (c : ℂ) = ((c : ℝ) : ℂ) := by push_cast; rfl
    rw [this, Complex.im_ofReal_mul]
  rw [h1, h2]
  unfold simpleDomainError
  by_cases hc : c < 0
  · have hc' : (c : ℝ) < 0 := by exact_mod_cast hc
    rw [neg_cpow_im (mul_neg_of_neg_of_pos hc' hp)]
    have hq : (0 : ℝ) < (-((c : ℝ) * x ^ (a : ℝ))) ^ (a : ℝ) :=
      Real.rpow_pos_of_pos (by linarith [mul_neg_of_neg_of_pos hc' hp]) _
    by_cases hd : a.den = 1
    · have : Real.sin (Real.pi * a) = 0 := by
        rw [Real.sin_eq_zero_iff]
        refine ⟨a.num, ?_⟩
        have : (a : ℝ) = a.num := by
          have := Rat.num_div_den a
          rw [hd] at this
          exact_mod_cast (by simpa using this.symm : a = (a.num : ℚ))
        rw [this]; ring
      simp [hd, this]
    · simp only [hc, hd, decide_true, ne_eq, not_false_eq_true, Bool.and_self, true_iff]
      exact mul_ne_zero hc'.ne (mul_ne_zero hq.ne' (sin_pi_ne hd))
  · have hc' : (0 : ℝ) ≤ c := by exact_mod_cast (not_lt.1 hc)
    have : ((((c : ℝ) * x ^ (a : ℝ) : ℝ) : ℂ) ^ (a : ℂ)).im = 0 := by
      have : (a : ℂ) = ((a : ℝ) : ℂ) := by push_cast; rfl
      rw [this, ← Complex.ofReal_cpow (by positivity)]
      simp
    rw [this]
    simp [hc]

example : simpleDomainError (-2) (1 / 2) = true := by
  simp [simpleDomainError]

end Purrs.NonLinear
