import Verif.Model.Expr
import Mathlib.Tactic.Ring
import Mathlib.Tactic.FieldSimp
import Mathlib.Tactic.Linarith

/-!
# The smart constructors preserve values
-/

namespace Purrs

variable {K : Type} [Field K] [CharZero K] (I : Interp K) (ρ : String → K)

omit [CharZero K] in
theorem eval_addends (e : Expr) : ((addends e).map (eval I ρ)).sum = eval I ρ e := by
  cases e <;> simp [addends, eval]

omit [CharZero K] in
theorem eval_factors (e : Expr) : ((factors e).map (eval I ρ)).prod = eval I ρ e := by
  cases e <;> simp [factors, eval]

theorem eval_addE (a b : Expr) : eval I ρ (addE a b) = eval I ρ a + eval I ρ b := by
  cases a <;> cases b <;> simp only [addE] <;> (try split) <;> simp_all [eval, add_assoc]

theorem eval_mulE (a b : Expr) : eval I ρ (mulE a b) = eval I ρ a * eval I ρ b := by
  cases a <;> cases b <;> simp only [mulE] <;> (try split) <;> (try split) <;>
    simp_all [eval, mul_assoc]

theorem eval_negE (a : Expr) : eval I ρ (negE a) = - eval I ρ a := by
  simp [negE, eval_mulE, eval]

theorem eval_subE (a b : Expr) : eval I ρ (subE a b) = eval I ρ a - eval I ρ b := by
  simp [subE, eval_addE, eval_negE, sub_eq_add_neg]

omit [CharZero K] in
theorem pw_zero (a : K) : I.pw a 0 = 1 := by
  have := I.pw_int a 0; simpa using this

omit [CharZero K] in
theorem pw_one (a : K) : I.pw a 1 = a := by
  have := I.pw_int a 1; simpa using this

omit [CharZero K] in
theorem pw_nat (a : K) (n : ℕ) : I.pw a (n : K) = a ^ n := by
  have := I.pw_int a n; simpa using this

theorem ratCast_of_den_one {q : ℚ} (h : q.den = 1) : (q : K) = ((q.num : ℤ) : K) := by
  conv_lhs => rw [← Rat.num_div_den q, h]
  simp

theorem eval_powE (a b : Expr) : eval I ρ (powE a b) = I.pw (eval I ρ a) (eval I ρ b) := by
  cases b with
  | num q =>
    cases a with
    | num p =>
      simp only [powE]
      split
      · rename_i h
        simp only [eval]
        rw [ratCast_of_den_one h, I.pw_int]; push_cast; rfl
      · split
        · rename_i h; simp [eval, h, I.one_pw]
        · simp [eval]
    | _ =>
      simp only [powE]
      split
      · rename_i h; simp [eval, h, pw_zero]
      · split
        · rename_i h; simp [eval, h, pw_one]
        · simp [eval]
  | _ =>
    cases a with
    | num p =>
      simp only [powE]
      split
      · rename_i h; simp [eval, h, I.one_pw]
      · simp [eval]
    | _ => simp [powE, eval]

theorem eval_foldr_addE {α : Type} (f : α → Expr) (l : List α) (z : Expr) :
    eval I ρ (l.foldr (fun a acc => addE acc (f a)) z)
      = eval I ρ z + (l.map fun a => eval I ρ (f a)).sum := by
  induction l with
  | nil => simp
  | cons a l ih => simp [eval_addE, ih]; ring

theorem eval_foldr_mulE {α : Type} (f : α → Expr) (l : List α) (z : Expr) :
    eval I ρ (l.foldr (fun a acc => mulE acc (f a)) z)
      = eval I ρ z * (l.map fun a => eval I ρ (f a)).prod := by
  induction l with
  | nil => simp
  | cons a l ih => simp [eval_mulE, ih]; ring

omit [CharZero K] in
theorem eval_isPosInt {e : Expr} (h : isPosInt e = true) :
    ∃ k : ℕ, 0 < k ∧ e = .num k := by
  cases e with
  | num q =>
    simp only [isPosInt, Bool.and_eq_true, decide_eq_true_eq] at h
    refine ⟨q.num.toNat, by omega, ?_⟩
    congr 1
    have h1 : ((q.num.toNat : ℤ)) = q.num := Int.toNat_of_nonneg (by omega)
    have h2 : (q.num : ℚ) = q := by
      conv_rhs => rw [← Rat.num_div_den q, h.1]
      simp
    rw [← h2]
    exact_mod_cast congrArg (Int.cast : ℤ → ℚ) h1.symm
  | _ => simp [isPosInt] at h

/-! Canonical examples of interpretations, for the non-vacuity witnesses. -/

/-- Rational functions without any transcendental: powers with integer exponents are
the field powers, everything else is arbitrary. -/
noncomputable def ratInterp : Interp ℚ where
  const := fun _ => 0
  pw := fun a b => a ^ b.num
  fn := fun _ _ => 0
  bind := fun k lo up f =>
    match k with
    | .sum => ((List.range (up - lo + 1).num.toNat).map fun i => f (lo + (i : ℚ))).sum
    | .prod => ((List.range (up - lo + 1).num.toNat).map fun i => f (lo + (i : ℚ))).prod
  pw_int := by intro a z; simp
  one_pw := by intro a; simp

end Purrs
