import Verif.Model.RealInterp
import Mathlib.Algebra.Polynomial.Roots
import Mathlib.Tactic.ComputeDegree
import Mathlib.Algebra.Polynomial.Eval.Degree
import Mathlib.Algebra.Polynomial.AlgebraMap
import Mathlib.Algebra.MvPolynomial.Eval
import Mathlib.Analysis.SpecialFunctions.Pow.Real

/-!
# C15, C18–C23, C25: expressions

All statements quantify over every interpretation `I` over every field of
characteristic 0, every valuation and every tree.
-/

set_option linter.unusedSectionVars false

namespace Purrs

open Function (update)

variable {K : Type} [Field K] [CharZero K] (I : Interp K)

/-! ## Specification: subterms -/

/-- `Sub s e`: `s` occurs in `e`. -/
inductive Sub : Expr → Expr → Prop
  | refl (e) : Sub e e
  | add {s a l} : a ∈ l → Sub s a → Sub s (.add l)
  | mul {s a l} : a ∈ l → Sub s a → Sub s (.mul l)
  | powB {s b e} : Sub s b → Sub s (.pow b e)
  | powE {s b e} : Sub s e → Sub s (.pow b e)
  | fn {s a f l} : a ∈ l → Sub s a → Sub s (.fn f l)
  | bI {s k i a b c} : Sub s i → Sub s (.binder k i a b c)
  | bLo {s k i a b c} : Sub s a → Sub s (.binder k i a b c)
  | bUp {s k i a b c} : Sub s b → Sub s (.binder k i a b c)
  | bBody {s k i a b c} : Sub s c → Sub s (.binder k i a b c)

theorem Sub.trans {a b c : Expr} (h1 : Sub a b) (h2 : Sub b c) : Sub a c := by
  induction h2 with
  | refl => exact h1
  | add hm _ ih => exact .add hm ih
  | mul hm _ ih => exact .mul hm ih
  | fn hm _ ih => exact .fn hm ih
  | powB _ ih => exact .powB ih
  | powE _ ih => exact .powE ih
  | bI _ ih => exact .bI ih
  | bLo _ ih => exact .bLo ih
  | bUp _ ih => exact .bUp ih
  | bBody _ ih => exact .bBody ih

/-- `has` is the subterm test. -/
theorem has_iff (y e : Expr) : has y e = true ↔ Sub y e := by
  induction e using Expr.ind with
  | num q =>
    simp [has]
    exact ⟨fun h => h ▸ .refl _, fun h => by cases h; rfl⟩
  | const q =>
    simp [has]
    exact ⟨fun h => h ▸ .refl _, fun h => by cases h; rfl⟩
  | sym q =>
    simp [has]
    exact ⟨fun h => h ▸ .refl _, fun h => by cases h; rfl⟩
  | add l ih =>
    rw [has]; simp
    constructor
    · rintro (h | ⟨a, ha, h⟩)
      · exact h ▸ .refl _
      · exact .add ha ((ih a ha).mp h)
    · intro h
      cases h with
      | refl => exact Or.inl rfl
      | add ha h => exact Or.inr ⟨_, ha, (ih _ ha).mpr h⟩
  | mul l ih =>
    rw [has]; simp
    constructor
    · rintro (h | ⟨a, ha, h⟩)
      · exact h ▸ .refl _
      · exact .mul ha ((ih a ha).mp h)
    · intro h
      cases h with
      | refl => exact Or.inl rfl
      | mul ha h => exact Or.inr ⟨_, ha, (ih _ ha).mpr h⟩
  | pow b e hb he =>
    rw [has]; simp
    rw [hb, he]
    constructor
    · rintro (h | h | h)
      · exact h ▸ .refl _
      · exact .powB h
      · exact .powE h
    · intro h
      cases h with
      | refl => exact Or.inl rfl
      | powB h => exact Or.inr (Or.inl h)
      | powE h => exact Or.inr (Or.inr h)
  | fn f l ih =>
    rw [has]; simp
    constructor
    · rintro (h | ⟨a, ha, h⟩)
      · exact h ▸ .refl _
      · exact .fn ha ((ih a ha).mp h)
    · intro h
      cases h with
      | refl => exact Or.inl rfl
      | fn ha h => exact Or.inr ⟨_, ha, (ih _ ha).mpr h⟩
  | binder k i a b c hi ha hb hc =>
    simp only [has, Bool.or_eq_true, decide_eq_true_eq, hi, ha, hb, hc]
    constructor
    · rintro (h | (((h | h) | h) | h))
      · exact h ▸ .refl _
      · exact .bI h
      · exact .bLo h
      · exact .bUp h
      · exact .bBody h
    · intro h
      cases h with
      | refl => exact Or.inl rfl
      | bI h => tauto
      | bLo h => tauto
      | bUp h => tauto
      | bBody h => tauto

/-! ## C20 scalar representation -/

theorem bindIdx_update (ρ : String → K) (x : String) (i : Expr) (v w : K)
    (h : i ≠ .sym x) : bindIdx (update ρ x v) i w = update (bindIdx ρ i w) x v := by
  cases i with
  | sym s =>
    simp only [bindIdx]
    have hx : x ≠ s := by rintro rfl; exact h rfl
    exact Function.update_comm hx v w ρ
  | _ => rfl

/-- If an expression is declared a scalar representation with respect to `x`, its value
does not depend on `x`. -/
theorem C20_scalar_sound (x : String) (e : Expr) (h : isScalarRep x e = true)
    (ρ : String → K) (v : K) : eval I (update ρ x v) e = eval I ρ e := by
  induction e using Expr.ind generalizing ρ with
  | num q => simp [eval]
  | const q => simp [eval]
  | sym s =>
    simp only [isScalarRep, ne_eq, decide_not, Bool.not_eq_eq_eq_not, Bool.not_true,
      decide_eq_false_iff_not] at h
    simp [eval, h]
  | add l ih =>
    simp [isScalarRep] at h
    simp only [eval]
    congr 1
    exact List.map_congr_left fun a ha => ih a ha (h a ha) ρ
  | mul l ih =>
    simp [isScalarRep] at h
    simp only [eval]
    congr 1
    exact List.map_congr_left fun a ha => ih a ha (h a ha) ρ
  | pow b e hb he =>
    simp [isScalarRep] at h
    simp only [eval, hb h.1, he h.2]
  | fn f l ih =>
    simp [isScalarRep] at h
    simp only [eval]
    congr 1
    exact List.map_congr_left fun a ha => ih a ha (h a ha) ρ
  | binder k i a b c hi ha hb hc =>
    simp [isScalarRep] at h
    obtain ⟨⟨⟨h1, h2⟩, h3⟩, h4⟩ := h
    simp only [eval, ha h2, hb h3]
    congr 1
    funext w
    have hne : i ≠ .sym x := by
      rintro rfl; simp [isScalarRep] at h1
    rw [bindIdx_update ρ x i v w hne]
    exact hc h4 _

/-- Converse on the syntactic side: an expression declared non-scalar really contains
the symbol, so the test is exact with respect to occurrence. -/
theorem C20_scalar_exact (x : String) (e : Expr) :
    isScalarRep x e = true ↔ ¬ Sub (.sym x) e := by
  rw [← has_iff, Bool.not_eq_true]
  induction e using Expr.ind with
  | num q => simp [isScalarRep, has]
  | const q => simp [isScalarRep, has]
  | sym s => simp [isScalarRep, has]
  | add l ih =>
    rw [has]; simp [isScalarRep]
    exact ⟨fun h a ha => (ih a ha).mp (h a ha), fun h a ha => (ih a ha).mpr (h a ha)⟩
  | mul l ih =>
    rw [has]; simp [isScalarRep]
    exact ⟨fun h a ha => (ih a ha).mp (h a ha), fun h a ha => (ih a ha).mpr (h a ha)⟩
  | pow b e hb he => rw [has]; simp [isScalarRep, hb, he]
  | fn f l ih =>
    rw [has]; simp [isScalarRep]
    exact ⟨fun h a ha => (ih a ha).mp (h a ha), fun h a ha => (ih a ha).mpr (h a ha)⟩
  | binder k i a b c hi ha hb hc => rw [has]; simp [isScalarRep, hi, ha, hb, hc, and_assoc]

example : isScalarRep "n" (.mul [.num 3, .pow (.sym "a") (.fn .log [.const "Pi"])]) = true := by
  simp [isScalarRep]

/-! ## C21 polynomials -/

section polyfun
open Polynomial

/-- Sums of polynomial functions, over any coefficient ring. -/
theorem polyFun_sum {R : Type} [CommRing R] [Algebra R K] {α : Type} (l : List α) (f : K → α → K)
    (h : ∀ a ∈ l, ∃ P : R[X], ∀ v, f v a = aeval v P) :
    ∃ P : R[X], ∀ v, (l.map (f v)).sum = aeval v P := by
  induction l with
  | nil => exact ⟨0, by simp⟩
  | cons a l ih =>
    obtain ⟨P, hP⟩ := h a (by simp)
    obtain ⟨Q, hQ⟩ := ih fun b hb => h b (by simp [hb])
    exact ⟨P + Q, fun v => by simp [hP, hQ]⟩

/-- Products of polynomial functions. -/
theorem polyFun_prod {R : Type} [CommRing R] [Algebra R K] {α : Type} (l : List α) (f : K → α → K)
    (h : ∀ a ∈ l, ∃ P : R[X], ∀ v, f v a = aeval v P) :
    ∃ P : R[X], ∀ v, (l.map (f v)).prod = aeval v P := by
  induction l with
  | nil => exact ⟨1, by simp⟩
  | cons a l ih =>
    obtain ⟨P, hP⟩ := h a (by simp)
    obtain ⟨Q, hQ⟩ := ih fun b hb => h b (by simp [hb])
    exact ⟨P * Q, fun v => by simp [hP, hQ]⟩

/-- Soundness of `is_polynomial`: for fixed values of the other symbols the value is a
polynomial function of `x`; one polynomial works for all values of `x`. -/
theorem C21_polynomial_sound (x : String) (e : Expr) (h : isPolynomial x e = true)
    (ρ : String → K) : ∃ P : K[X], ∀ v, eval I (update ρ x v) e = aeval v P := by
  have scal : ∀ e : Expr, isScalarRep x e = true →
      ∃ P : K[X], ∀ v, eval I (update ρ x v) e = aeval v P := fun e he =>
    ⟨C (eval I ρ e), fun v => by rw [C20_scalar_sound I x e he]; simp⟩
  induction e using Expr.ind with
  | num q => exact scal _ (by simp [isScalarRep])
  | const q => exact scal _ (by simp [isScalarRep])
  | sym s =>
    by_cases hs : s = x
    · subst hs; exact ⟨X, fun v => by simp [eval]⟩
    · exact scal _ (by simp [isScalarRep, hs])
  | add l ih =>
    rw [isPolynomial] at h
    split at h
    · exact scal _ (by assumption)
    · simp at h
      simpa [eval] using polyFun_sum l (fun v a => eval I (update ρ x v) a)
        fun a ha => ih a ha (h a ha)
  | mul l ih =>
    rw [isPolynomial] at h
    split at h
    · exact scal _ (by assumption)
    · simp at h
      simpa [eval] using polyFun_prod l (fun v a => eval I (update ρ x v) a)
        fun a ha => ih a ha (h a ha)
  | pow b e hb he =>
    rw [isPolynomial] at h
    split at h
    · exact scal _ (by assumption)
    · simp at h
      obtain ⟨k, hk, rfl⟩ := eval_isPosInt h.2
      obtain ⟨P, hP⟩ := hb h.1
      exact ⟨P ^ k, fun v => by simp [eval, hP, pw_nat]⟩
  | fn f l ih =>
    simp only [isPolynomial] at h
    split at h
    · exact scal _ (by assumption)
    · simp at h
  | binder k i a b c hi ha hb hc =>
    simp only [isPolynomial] at h
    split at h
    · exact scal _ (by assumption)
    · simp at h

/-- Specification: the expression is built without constants and functions. -/
def FunctionFree : Expr → Prop := fun e =>
  ∀ s, Sub s e → (∀ f l, s ≠ .fn f l) ∧ (∀ k i a b c, s ≠ .binder k i a b c)

/-- Specification: all exponents are positive integer numerals. -/
def NatPowers : Expr → Prop := fun e =>
  ∀ b ex, Sub (.pow b ex) e → isPosInt ex = true

/-- Soundness of `is_integer_polynomial` on function-free expressions when the other
symbols stand for integers.  Missing from the full claim: expressions with functions,
for which it is false (`C102_integer_polynomial_refuted`). -/
theorem C102_integer_polynomial_partial (x : String) (e : Expr)
    (h : isIntPolynomial x e = true) (hf : FunctionFree e)
    (ρ : String → K) (hρ : ∀ s, s ≠ x → ∃ z : ℤ, ρ s = z) :
    ∃ P : ℤ[X], ∀ v, eval I (update ρ x v) e = aeval v P := by
  have scal : ∀ e : Expr, FunctionFree e → isIntScalarRep x e = true →
      ∃ P : ℤ[X], ∀ v, eval I (update ρ x v) e = aeval v P := by
    intro e hf he
    induction e using Expr.ind with
    | num q =>
      simp [isIntScalarRep] at he
      exact ⟨C q.num, fun v => by simp [eval, ratCast_of_den_one he]⟩
    | const q => simp [isIntScalarRep] at he
    | sym s =>
      simp [isIntScalarRep] at he
      obtain ⟨z, hz⟩ := hρ s he
      exact ⟨C z, fun v => by simp [eval, he, hz]⟩
    | add l ih =>
      simp [isIntScalarRep] at he
      simpa [eval] using polyFun_sum l (fun v a => eval I (update ρ x v) a)
        fun a ha => ih a ha (fun s hs => hf s (.add ha hs)) (he a ha)
    | mul l ih =>
      simp [isIntScalarRep] at he
      simpa [eval] using polyFun_prod l (fun v a => eval I (update ρ x v) a)
        fun a ha => ih a ha (fun s hs => hf s (.mul ha hs)) (he a ha)
    | pow b e hb _ =>
      simp [isIntScalarRep] at he
      obtain ⟨k, hk, rfl⟩ := eval_isPosInt he.2
      obtain ⟨P, hP⟩ := hb (fun s hs => hf s (.powB hs)) he.1
      exact ⟨P ^ k, fun v => by simp [eval, hP, pw_nat]⟩
    | fn f l ih => exact absurd rfl ((hf _ (.refl _)).1 f l)
    | binder k i a b c hi ha hb hc => exact absurd rfl ((hf _ (.refl _)).2 k i a b c)
  induction e using Expr.ind with
  | num q =>
    simp [isIntPolynomial] at h
    exact scal _ hf h
  | const q => simp [isIntPolynomial, isIntScalarRep] at h
  | sym s =>
    by_cases hs : s = x
    · subst hs; exact ⟨X, fun v => by simp [eval]⟩
    · exact scal _ hf (by simp [isIntScalarRep, hs])
  | add l ih =>
    rw [isIntPolynomial] at h
    split at h
    · exact scal _ hf (by assumption)
    · simp at h
      simpa [eval] using polyFun_sum l (fun v a => eval I (update ρ x v) a)
        fun a ha => ih a ha (h a ha) (fun s hs => hf s (.add ha hs))
  | mul l ih =>
    rw [isIntPolynomial] at h
    split at h
    · exact scal _ hf (by assumption)
    · simp at h
      simpa [eval] using polyFun_prod l (fun v a => eval I (update ρ x v) a)
        fun a ha => ih a ha (h a ha) (fun s hs => hf s (.mul ha hs))
  | pow b e hb he =>
    rw [isIntPolynomial] at h
    split at h
    · exact scal _ hf (by assumption)
    · simp at h
      obtain ⟨k, hk, rfl⟩ := eval_isPosInt h.2
      obtain ⟨P, hP⟩ := hb h.1 (fun s hs => hf s (.powB hs))
      exact ⟨P ^ k, fun v => by simp [eval, hP, pw_nat]⟩
  | fn f l ih => exact absurd rfl ((hf _ (.refl _)).1 f l)
  | binder k i a b c hi ha hb hc => exact absurd rfl ((hf _ (.refl _)).2 k i a b c)

/-- Refutation: every function applied to the variable itself is accepted as an integer
polynomial in that variable (e.g. `sin(n)`, or the unknown `x(n)`). -/
theorem C102_integer_polynomial_refuted (f : Fn) (x : String) :
    isIntPolynomial x (.fn f [.sym x]) = true := by
  simp [isIntPolynomial, isIntScalarRep, argIsSymbol]

/-- Soundness of `is_rational_polynomial` when all exponents are positive integer
numerals and the other symbols stand for rationals.  Missing: symbolic exponents, for
which it is false (`C102_rational_polynomial_refuted`). -/
theorem C102_rational_polynomial_partial (x : String) (e : Expr)
    (h : isRatPolynomial x e = true) (hp : NatPowers e)
    (ρ : String → K) (hρ : ∀ s, s ≠ x → ∃ z : ℚ, ρ s = z) :
    ∃ P : ℚ[X], ∀ v, eval I (update ρ x v) e = aeval v P := by
  have scal : ∀ e : Expr, NatPowers e → isRatScalarRep x e = true →
      ∃ P : ℚ[X], ∀ v, eval I (update ρ x v) e = aeval v P := by
    intro e hp he
    induction e using Expr.ind with
    | num q => exact ⟨C q, fun v => by simp [eval]⟩
    | sym s =>
      simp [isRatScalarRep] at he
      obtain ⟨z, hz⟩ := hρ s he
      exact ⟨C z, fun v => by simp [eval, he, hz]⟩
    | pow b e hb _ =>
      obtain ⟨k, hk, rfl⟩ := eval_isPosInt (hp b e (.refl _))
      simp [isRatScalarRep] at he
      obtain ⟨P, hP⟩ := hb (fun b e hs => hp b e (.powB hs)) he.1
      exact ⟨P ^ k, fun v => by simp [eval, hP, pw_nat]⟩
    | _ => simp [isRatScalarRep] at he
  induction e using Expr.ind with
  | num q => exact ⟨C q, fun v => by simp [eval]⟩
  | const q => simp [isRatPolynomial, isRatScalarRep] at h
  | sym s =>
    by_cases hs : s = x
    · subst hs; exact ⟨X, fun v => by simp [eval]⟩
    · exact scal _ hp (by simp [isRatScalarRep, hs])
  | add l ih =>
    rw [isRatPolynomial] at h
    simp [isRatScalarRep] at h
    simpa [eval] using polyFun_sum l (fun v a => eval I (update ρ x v) a)
        fun a ha => ih a ha (h a ha) (fun b e hs => hp b e (.add ha hs))
  | mul l ih =>
    rw [isRatPolynomial] at h
    simp [isRatScalarRep] at h
    simpa [eval] using polyFun_prod l (fun v a => eval I (update ρ x v) a)
        fun a ha => ih a ha (h a ha) (fun b e hs => hp b e (.mul ha hs))
  | pow b e hb he =>
    rw [isRatPolynomial] at h
    split at h
    · exact scal _ hp (by assumption)
    · simp at h
      obtain ⟨k, hk, rfl⟩ := eval_isPosInt h.2
      obtain ⟨P, hP⟩ := hb h.1 (fun b e hs => hp b e (.powB hs))
      exact ⟨P ^ k, fun v => by simp [eval, hP, pw_nat]⟩
  | fn f l ih => simp [isRatPolynomial, isRatScalarRep] at h
  | binder k i a b c hi ha hb hc => simp [isRatPolynomial, isRatScalarRep] at h

/-- Refutation: the exponential `2^x` is accepted as a rational polynomial in `x`,
although with the usual real meaning no polynomial has its values. -/
theorem C102_rational_polynomial_refuted (x : String) :
    isRatPolynomial x (.pow (.num 2) (.sym x)) = true ∧
    ∀ ξ, ¬ ∃ P : ℝ[X], ∀ v : ℝ,
      eval (realInterp ξ) (update (fun _ => 0) x v) (.pow (.num 2) (.sym x)) = aeval v P := by
  refine ⟨by simp [isRatPolynomial, isRatScalarRep, isNum], ?_⟩
  rintro ξ ⟨P, hP⟩
  have h1 : ∀ v : ℝ, P.eval v = (2 : ℝ) ^ v := fun v => by
    have := hP v
    simp [eval, realInterp] at this
    rw [← this]
  have h2 : P.comp (X + 1) = C 2 * P := by
    apply Polynomial.funext
    intro v
    simp only [eval_comp, eval_add, eval_X, eval_one, eval_mul, eval_C, h1]
    rw [Real.rpow_add (by norm_num), Real.rpow_one]; ring
  have h3 := congrArg leadingCoeff h2
  rw [leadingCoeff_comp (by rw [show (X + 1 : ℝ[X]) = X + C 1 by simp, natDegree_X_add_C]; norm_num), leadingCoeff_mul, leadingCoeff_C,
    show (X + 1 : ℝ[X]).leadingCoeff = 1 from (monic_X_add_C (1:ℝ)).leadingCoeff] at h3
  have h4 : P.leadingCoeff = 0 := by simp at h3; linarith
  have h5 := h1 0
  rw [leadingCoeff_eq_zero.mp h4] at h5
  simp at h5

/-- The dangling `else`: no sum is ever a "rational scalar representation", although the
branch for sums is written in the source. -/
theorem C102_rational_scalar_dangling_else (x : String) (l : List Expr) :
    isRatScalarRep x (.add l) = false ∧ isRatScalarRep x (.mul l) = false := by
  simp [isRatScalarRep]

end polyfun

/-- A closed scalar does not depend on any symbol. -/
theorem closedScalar_sound (e : Expr) (h : isClosedScalar e = true) (ρ σ : String → K) :
    eval I ρ e = eval I σ e := by
  induction e using Expr.ind with
  | num q => simp [eval]
  | const q => simp [eval]
  | sym s => simp [isClosedScalar] at h
  | add l ih =>
    simp [isClosedScalar] at h
    simp only [eval]; congr 1
    exact List.map_congr_left fun a ha => ih a ha (h a ha)
  | mul l ih =>
    simp [isClosedScalar] at h
    simp only [eval]; congr 1
    exact List.map_congr_left fun a ha => ih a ha (h a ha)
  | pow b e hb he =>
    simp [isClosedScalar] at h
    simp only [eval, hb h.1, he h.2]
  | fn f l ih =>
    simp [isClosedScalar] at h
    simp only [eval]; congr 1
    exact List.map_congr_left fun a ha => ih a ha (h a ha)
  | binder k i a b c hi ha hb hc =>
    simp [isClosedScalar] at h
    obtain ⟨⟨⟨h1, h2⟩, h3⟩, h4⟩ := h
    simp only [eval, ha h2, hb h3]
    congr 1
    funext w
    have : ∀ τ : String → K, bindIdx τ i w = τ := by
      intro τ; cases i <;> first | rfl | simp [isClosedScalar] at h1
    rw [this, this, hc h4]

/-- Soundness of `is_multivariate_polynomial`: one multivariate polynomial gives the
value under every valuation. -/
theorem C21_multivariate_sound (e : Expr) (h : isMvPolynomial e = true) :
    ∃ P : MvPolynomial String K, ∀ ρ : String → K, eval I ρ e = MvPolynomial.eval ρ P := by
  have scal : ∀ e : Expr, isClosedScalar e = true →
      ∃ P : MvPolynomial String K, ∀ ρ : String → K, eval I ρ e = MvPolynomial.eval ρ P :=
    fun e he => ⟨MvPolynomial.C (eval I (fun _ => 0) e), fun ρ => by
      rw [closedScalar_sound I e he ρ (fun _ => 0)]; simp⟩
  induction e using Expr.ind with
  | num q => exact scal _ (by simp [isClosedScalar])
  | const q => exact scal _ (by simp [isClosedScalar])
  | sym s => exact ⟨MvPolynomial.X s, fun ρ => by simp [eval]⟩
  | add l ih =>
    rw [isMvPolynomial] at h
    split at h
    · exact scal _ (by assumption)
    · simp at h
      have : ∀ m : List Expr, (∀ a ∈ m, a ∈ l) → ∃ P : MvPolynomial String K,
          ∀ ρ : String → K, (m.map (eval I ρ)).sum = MvPolynomial.eval ρ P := by
        intro m hm
        induction m with
        | nil => exact ⟨0, by simp⟩
        | cons a m ihm =>
          obtain ⟨P, hP⟩ := ih a (hm a (by simp)) (h a (hm a (by simp)))
          obtain ⟨Q, hQ⟩ := ihm fun b hb => hm b (by simp [hb])
          exact ⟨P + Q, fun ρ => by simp [hP, hQ]⟩
      simpa [eval] using this l fun a ha => ha
  | mul l ih =>
    rw [isMvPolynomial] at h
    split at h
    · exact scal _ (by assumption)
    · simp at h
      have : ∀ m : List Expr, (∀ a ∈ m, a ∈ l) → ∃ P : MvPolynomial String K,
          ∀ ρ : String → K, (m.map (eval I ρ)).prod = MvPolynomial.eval ρ P := by
        intro m hm
        induction m with
        | nil => exact ⟨1, by simp⟩
        | cons a m ihm =>
          obtain ⟨P, hP⟩ := ih a (hm a (by simp)) (h a (hm a (by simp)))
          obtain ⟨Q, hQ⟩ := ihm fun b hb => hm b (by simp [hb])
          exact ⟨P * Q, fun ρ => by simp [hP, hQ]⟩
      simpa [eval] using this l fun a ha => ha
  | pow b e hb he =>
    rw [isMvPolynomial] at h
    split at h
    · exact scal _ (by assumption)
    · simp at h
      obtain ⟨k, hk, rfl⟩ := eval_isPosInt h.2
      obtain ⟨P, hP⟩ := hb h.1
      exact ⟨P ^ k, fun v => by simp [eval, hP, pw_nat]⟩
  | fn f l ih =>
    simp only [isMvPolynomial] at h
    split at h
    · exact scal _ (by assumption)
    · simp at h
  | binder k i a b c hi ha hb hc =>
    simp only [isMvPolynomial] at h
    split at h
    · exact scal _ (by assumption)
    · simp at h

/-- Non-vacuity: `n²·a + 3·n` is accepted. -/
example : isPolynomial "n" (.add [.mul [.pow (.sym "n") (.num 2), .sym "a"],
    .mul [.num 3, .sym "n"]]) = true := by
  simp [isPolynomial, isScalarRep, isPosInt]

/-! ## C22 the unknown function -/

/-- `has_x_function` is true exactly when `x(…)` occurs. -/
theorem C22_hasX_exact (e : Expr) : hasX e = true ↔ ∃ l, Sub (.fn .x l) e := by
  induction e using Expr.ind with
  | num q => simp [hasX]; intro l h; cases h
  | const q => simp [hasX]; intro l h; cases h
  | sym q => simp [hasX]; intro l h; cases h
  | add l ih =>
    simp [hasX]
    constructor
    · rintro ⟨a, ha, h⟩
      obtain ⟨m, hm⟩ := (ih a ha).mp h
      exact ⟨m, .add ha hm⟩
    · rintro ⟨m, h⟩
      cases h with
      | add ha h => exact ⟨_, ha, (ih _ ha).mpr ⟨m, h⟩⟩
  | mul l ih =>
    simp [hasX]
    constructor
    · rintro ⟨a, ha, h⟩
      obtain ⟨m, hm⟩ := (ih a ha).mp h
      exact ⟨m, .mul ha hm⟩
    · rintro ⟨m, h⟩
      cases h with
      | mul ha h => exact ⟨_, ha, (ih _ ha).mpr ⟨m, h⟩⟩
  | pow b e hb he =>
    simp [hasX, hb, he]
    constructor
    · rintro (⟨m, h⟩ | ⟨m, h⟩)
      · exact ⟨m, .powB h⟩
      · exact ⟨m, .powE h⟩
    · rintro ⟨m, h⟩
      cases h with
      | powB h => exact Or.inl ⟨m, h⟩
      | powE h => exact Or.inr ⟨m, h⟩
  | fn f l ih =>
    by_cases hf : f = .x
    · subst hf; simp [hasX]; exact ⟨l, .refl _⟩
    · simp [hasX, hf]
      constructor
      · rintro ⟨a, ha, h⟩
        obtain ⟨m, hm⟩ := (ih a ha).mp h
        exact ⟨m, .fn ha hm⟩
      · rintro ⟨m, h⟩
        cases h with
        | refl => exact absurd rfl hf
        | fn ha h => exact ⟨_, ha, (ih _ ha).mpr ⟨m, h⟩⟩
  | binder k i a b c hi ha hb hc =>
    simp [hasX, hi, ha, hb, hc]
    constructor
    · rintro (((⟨m, h⟩ | ⟨m, h⟩) | ⟨m, h⟩) | ⟨m, h⟩)
      · exact ⟨m, .bI h⟩
      · exact ⟨m, .bLo h⟩
      · exact ⟨m, .bUp h⟩
      · exact ⟨m, .bBody h⟩
    · rintro ⟨m, h⟩
      cases h with
      | bI h => exact Or.inl (Or.inl (Or.inl ⟨m, h⟩))
      | bLo h => exact Or.inl (Or.inl (Or.inr ⟨m, h⟩))
      | bUp h => exact Or.inl (Or.inr ⟨m, h⟩)
      | bBody h => exact Or.inr ⟨m, h⟩

/-- The unknown is unary wherever it occurs (src/Expr.cc:60-110 registers `x` with one
argument). -/
def UnaryX (e : Expr) : Prop := ∀ l, Sub (.fn .x l) e → ∃ a, l = [a]

/-- `has_x_function(y)` is true exactly when some `x(a)` occurs with `y` in `a`. -/
theorem C22_hasXOf_exact (y e : Expr) (hu : UnaryX e) :
    hasXOf y e = true ↔ ∃ a, Sub (.fn .x [a]) e ∧ Sub y a := by
  induction e using Expr.ind with
  | num q => simp [hasXOf]; intro l h; cases h
  | const q => simp [hasXOf]; intro l h; cases h
  | sym q => simp [hasXOf]; intro l h; cases h
  | add l ih =>
    have ih' := fun a ha => ih a ha (fun m hm => hu m (.add ha hm))
    simp [hasXOf]
    constructor
    · rintro ⟨a, ha, h⟩
      obtain ⟨m, hm, hy⟩ := (ih' a ha).mp h
      exact ⟨m, .add ha hm, hy⟩
    · rintro ⟨m, h, hy⟩
      cases h with
      | add ha h => exact ⟨_, ha, (ih' _ ha).mpr ⟨m, h, hy⟩⟩
  | mul l ih =>
    have ih' := fun a ha => ih a ha (fun m hm => hu m (.mul ha hm))
    simp [hasXOf]
    constructor
    · rintro ⟨a, ha, h⟩
      obtain ⟨m, hm, hy⟩ := (ih' a ha).mp h
      exact ⟨m, .mul ha hm, hy⟩
    · rintro ⟨m, h, hy⟩
      cases h with
      | mul ha h => exact ⟨_, ha, (ih' _ ha).mpr ⟨m, h, hy⟩⟩
  | pow b e hb he =>
    simp [hasXOf, hb (fun m hm => hu m (.powB hm)), he (fun m hm => hu m (.powE hm))]
    constructor
    · rintro (⟨m, h, hy⟩ | ⟨m, h, hy⟩)
      · exact ⟨m, .powB h, hy⟩
      · exact ⟨m, .powE h, hy⟩
    · rintro ⟨m, h, hy⟩
      cases h with
      | powB h => exact Or.inl ⟨m, h, hy⟩
      | powE h => exact Or.inr ⟨m, h, hy⟩
  | fn f l ih =>
    have ih' := fun a ha => ih a ha (fun m hm => hu m (.fn ha hm))
    by_cases hf : f = .x
    · subst hf
      obtain ⟨a, rfl⟩ := hu l (.refl _)
      simp [hasXOf, has_iff]
      constructor
      · intro h; exact ⟨a, .refl _, h⟩
      · rintro ⟨m, h, hy⟩
        cases h with
        | refl => exact hy
        | fn ha h =>
          rw [List.mem_singleton.mp ha] at h
          exact (Sub.trans hy (.fn List.mem_cons_self (.refl _))).trans h
    · unfold hasXOf; simp [hf]
      constructor
      · rintro ⟨a, ha, h⟩
        obtain ⟨m, hm, hy⟩ := (ih' a ha).mp h
        exact ⟨m, .fn ha hm, hy⟩
      · rintro ⟨m, h, hy⟩
        cases h with
        | refl => exact absurd rfl hf
        | fn ha h => exact ⟨_, ha, (ih' _ ha).mpr ⟨m, h, hy⟩⟩
  | binder k i a b c hi ha hb hc =>
    simp [hasXOf, hi (fun m hm => hu m (.bI hm)), ha (fun m hm => hu m (.bLo hm)),
      hb (fun m hm => hu m (.bUp hm)), hc (fun m hm => hu m (.bBody hm))]
    constructor
    · rintro (((⟨m, h, hy⟩ | ⟨m, h, hy⟩) | ⟨m, h, hy⟩) | ⟨m, h, hy⟩)
      · exact ⟨m, .bI h, hy⟩
      · exact ⟨m, .bLo h, hy⟩
      · exact ⟨m, .bUp h, hy⟩
      · exact ⟨m, .bBody h, hy⟩
    · rintro ⟨m, h, hy⟩
      cases h with
      | bI h => exact Or.inl (Or.inl (Or.inl ⟨m, h, hy⟩))
      | bLo h => exact Or.inl (Or.inl (Or.inr ⟨m, h, hy⟩))
      | bUp h => exact Or.inl (Or.inr ⟨m, h, hy⟩)
      | bBody h => exact Or.inr ⟨m, h, hy⟩

example : UnaryX (.add [.fn .x [.add [.sym "n", .num (-1)]], .sym "n"]) := by
  intro l h
  cases h with
  | add ha h =>
    rcases List.mem_cons.mp ha with e | e
    · subst e
      cases h with
      | refl => exact ⟨_, rfl⟩
      | fn hb h =>
        rw [List.mem_singleton.mp hb] at h
        cases h with
        | add hc h =>
          simp only [List.mem_cons, List.not_mem_nil, or_false] at hc
          rcases hc with e | e <;> subst e <;> cases h
    · rw [List.mem_singleton.mp e] at h; cases h

/-- Specification: `J` interprets everything as `I` does, except perhaps the unknown. -/
def SameButX (I J : Interp K) : Prop :=
  I.const = J.const ∧ I.pw = J.pw ∧ I.bind = J.bind ∧ ∀ f, f ≠ .x → I.fn f = J.fn f

/-- The value of an expression without `x(…)` does not depend on the unknown. -/
theorem C22_hasX_sound (I J : Interp K) (hIJ : SameButX I J) (e : Expr) (h : hasX e = false)
    (ρ : String → K) : eval I ρ e = eval J ρ e := by
  obtain ⟨h1, h2, h3, h4⟩ := hIJ
  induction e using Expr.ind generalizing ρ with
  | num q => simp [eval]
  | const q => simp [eval, h1]
  | sym s => simp [eval]
  | add l ih =>
    simp [hasX] at h
    simp only [eval]; congr 1
    exact List.map_congr_left fun a ha => ih a ha (h a ha) ρ
  | mul l ih =>
    simp [hasX] at h
    simp only [eval]; congr 1
    exact List.map_congr_left fun a ha => ih a ha (h a ha) ρ
  | pow b e hb he =>
    simp [hasX] at h
    simp only [eval, hb h.1, he h.2, h2]
  | fn f l ih =>
    have hf : f ≠ .x := by rintro rfl; simp [hasX] at h
    simp [hasX, hf] at h
    simp only [eval, h4 f hf]; congr 1
    exact List.map_congr_left fun a ha => ih a ha (h a ha) ρ
  | binder k i a b c hi ha hb hc =>
    simp [hasX] at h
    obtain ⟨⟨⟨_, p2⟩, p3⟩, p4⟩ := h
    simp only [eval, ha p2, hb p3, h3]
    congr 1
    funext w
    exact hc p4 _

/-- `has_parameters` answers false only if no symbol but `n` and no `x(…)` occurs; so the
value is a function of `n` alone. -/
theorem C22_hasParameters_sound (n : String) (I J : Interp K) (hIJ : SameButX I J) (e : Expr)
    (h : hasParameters n e = false) (ρ σ : String → K) (hn : ρ n = σ n) :
    eval I ρ e = eval J σ e := by
  obtain ⟨h1, h2, h3, h4⟩ := hIJ
  induction e using Expr.ind generalizing ρ σ with
  | num q => simp [eval]
  | const q => simp [eval, h1]
  | sym s =>
    simp [hasParameters] at h
    simp [eval, h, hn]
  | add l ih =>
    simp [hasParameters] at h
    simp only [eval]; congr 1
    exact List.map_congr_left fun a ha => ih a ha (h a ha) ρ σ hn
  | mul l ih =>
    simp [hasParameters] at h
    simp only [eval]; congr 1
    exact List.map_congr_left fun a ha => ih a ha (h a ha) ρ σ hn
  | pow b e hb he =>
    simp [hasParameters] at h
    simp only [eval, hb h.1 ρ σ hn, he h.2 ρ σ hn, h2]
  | fn f l ih =>
    have hf : f ≠ .x := by rintro rfl; simp [hasParameters] at h
    simp [hasParameters, hf] at h
    simp only [eval, h4 f hf]; congr 1
    exact List.map_congr_left fun a ha => ih a ha (h a ha) ρ σ hn
  | binder k i a b c hi ha hb hc =>
    simp [hasParameters] at h
    obtain ⟨⟨⟨p1, p2⟩, p3⟩, p4⟩ := h
    simp only [eval, ha p2 ρ σ hn, hb p3 ρ σ hn, h3]
    congr 1
    funext w
    refine hc p4 _ _ ?_
    cases i with
    | sym s =>
      simp [hasParameters] at p1
      simp [bindIdx, p1]
    | _ => exact hn

example : hasX (.add [.num 1, .pow (.sym "n") (.fn .x [.sym "n"])]) = true := by simp [hasX]
example : hasParameters "n" (.mul [.num 2, .pow (.num 3) (.sym "n")]) = false := by
  simp [hasParameters]

/-! ## C18 substitution -/

/-- Specification: each binder in `e` binds a symbol that differs from `x`, and on which
the value of `r` does not depend; so substituting `r` for `x` captures nothing. -/
def CaptureFree (I : Interp K) (x : String) (r : Expr) : Expr → Prop
  | .add l => ∀ p ∈ l.attach, CaptureFree I x r p.1
  | .mul l => ∀ p ∈ l.attach, CaptureFree I x r p.1
  | .pow b e => CaptureFree I x r b ∧ CaptureFree I x r e
  | .fn _ l => ∀ p ∈ l.attach, CaptureFree I x r p.1
  | .binder _ i lo up body =>
      CaptureFree I x r lo ∧ CaptureFree I x r up ∧ CaptureFree I x r body ∧
      ∃ s, i = .sym s ∧ s ≠ x ∧ ∀ (ρ : String → K) v, eval I (update ρ s v) r = eval I ρ r
  | _ => True
decreasing_by all_goals (first | (have := List.sizeOf_lt_of_mem p.2; simp; omega) | (simp <;> omega))

/-- Substituting `r` for the symbol `x` is semantic substitution, for every expression in
which no summation index is captured. -/
theorem C100_capture_free_partial (x : String) (r e : Expr) (h : CaptureFree I x r e)
    (ρ : String → K) :
    eval I ρ (substitute (.sym x) r e) = eval I (update ρ x (eval I ρ r)) e := by
  induction e using Expr.ind generalizing ρ with
  | num q => simp [substitute, eval]
  | const q => simp [substitute, eval]
  | sym s =>
    by_cases hs : s = x
    · subst hs; simp [substitute, eval]
    · simp [substitute, eval, hs]
  | add l ih =>
    simp [CaptureFree] at h
    rw [substitute]
    simp only [reduceCtorEq, if_false, eval_foldr_addE, eval]
    simp only [Rat.cast_zero, zero_add]
    congr 1
    exact List.map_congr_left fun a ha => ih a ha (h a ha) ρ
  | mul l ih =>
    simp [CaptureFree] at h
    rw [substitute]
    simp only [reduceCtorEq, if_false, eval_foldr_mulE, eval]
    simp only [Rat.cast_one, one_mul]
    congr 1
    exact List.map_congr_left fun a ha => ih a ha (h a ha) ρ
  | pow b e hb he =>
    simp [CaptureFree] at h
    rw [substitute]
    simp [eval_powE, eval, hb h.1, he h.2]
  | fn f l ih =>
    simp [CaptureFree] at h
    simp only [substitute, reduceCtorEq, if_false, eval, List.map_map]
    congr 1
    exact List.map_congr_left fun a ha => ih a ha (h a ha) ρ
  | binder k i a b c hi ha hb hc =>
    simp only [CaptureFree] at h
    obtain ⟨h1, h2, h3, s, rfl, h4, h5⟩ := h
    simp only [substitute, reduceCtorEq, if_false, eval, ha h1, hb h2]
    congr 1
    funext w
    simp only [Expr.sym.injEq, if_neg h4, bindIdx]
    rw [hc h3, h5, Function.update_comm h4]

/-- In particular for expressions without `sum`/`prod`, for every replacement. -/
theorem C18_substitute_binderfree (x : String) (r e : Expr) (h : hasSumOrProd e = false)
    (ρ : String → K) :
    eval I ρ (substitute (.sym x) r e) = eval I (update ρ x (eval I ρ r)) e := by
  apply C100_capture_free_partial
  induction e using Expr.ind with
  | num q => simp [CaptureFree]
  | const q => simp [CaptureFree]
  | sym s => simp [CaptureFree]
  | add l ih => simp [hasSumOrProd] at h; simp [CaptureFree]; exact fun a ha => ih a ha (h a ha)
  | mul l ih => simp [hasSumOrProd] at h; simp [CaptureFree]; exact fun a ha => ih a ha (h a ha)
  | pow b e hb he => simp [hasSumOrProd] at h; simp [CaptureFree]; exact ⟨hb h.1, he h.2⟩
  | fn f l ih => simp [hasSumOrProd] at h; simp [CaptureFree]; exact fun a ha => ih a ha (h a ha)
  | binder k i a b c hi ha hb hc => simp [hasSumOrProd] at h

/-- Replacing a subexpression by one of equal value (under all valuations, provided a
bound index is not itself the replaced expression) does not change the value. -/
theorem C18_substitute_equal (s r e : Expr) (hs : ∀ ρ : String → K, eval I ρ s = eval I ρ r)
    (hsym : ∀ t, s ≠ .sym t) (ρ : String → K)
    (hb : ∀ k i a b c, Sub (.binder k i a b c) e → ∃ t, i = .sym t) :
    eval I ρ (substitute s r e) = eval I ρ e := by
  induction e using Expr.ind generalizing ρ with
  | num q => rw [substitute]; split <;> simp_all
  | const q => rw [substitute]; split <;> simp_all
  | sym t => rw [substitute]; split <;> simp_all
  | add l ih =>
    rw [substitute]
    split
    · rename_i h; rw [h, hs]
    · simp only [eval_foldr_addE, eval, Rat.cast_zero, zero_add]
      congr 1
      exact List.map_congr_left fun a ha => ih a ha ρ fun k i p q c h => hb k i p q c (.add ha h)
  | mul l ih =>
    rw [substitute]
    split
    · rename_i h; rw [h, hs]
    · simp only [eval_foldr_mulE, eval, Rat.cast_one, one_mul]
      congr 1
      exact List.map_congr_left fun a ha => ih a ha ρ fun k i p q c h => hb k i p q c (.mul ha h)
  | pow b e ihb ihe =>
    rw [substitute]
    split
    · rename_i h; rw [h, hs]
    · simp [eval_powE, eval, ihb ρ fun k i p q c h => hb k i p q c (.powB h),
        ihe ρ fun k i p q c h => hb k i p q c (.powE h)]
  | fn f l ih =>
    simp only [substitute]
    split
    · rename_i h; rw [h, hs]
    · simp only [eval, List.map_map]
      congr 1
      exact List.map_congr_left fun a ha => ih a ha ρ fun k i p q c h => hb k i p q c (.fn ha h)
  | binder k i a b c hi ha hbb hc =>
    simp only [substitute]
    split
    · rename_i h; rw [h, hs]
    · obtain ⟨t, rfl⟩ := hb k i a b c (.refl _)
      simp only [eval]
      rw [ha ρ fun k i p q c h => hb k i p q c (.bLo h),
        hbb ρ fun k i p q c h => hb k i p q c (.bUp h)]
      congr 1
      funext w
      have e1 : substitute s r (.sym t) = .sym t := by
        simp [substitute, Ne.symm (hsym t)]
      rw [e1]
      exact hc _ fun k i p q c h => hb k i p q c (.bBody h)

/-- Refutation: substitution is not capture-avoiding.  Substituting the summation index
`k` for `n` in `sum(k, 1, 2, n)` changes the value from `2·k` to `1 + 2`. -/
theorem C100_capture_refuted :
    let e := Expr.binder .sum (.sym "k") (.num 1) (.num 2) (.sym "n")
    ∀ ξ, eval (realInterp ξ) (fun _ => 0) (substitute (.sym "n") (.sym "k") e) = 3 ∧
      eval (realInterp ξ) (update (fun _ => 0) "n"
        (eval (realInterp ξ) (fun _ => 0) (.sym "k"))) e = 0 := by
  intro e ξ
  have hIcc : Finset.Icc ⌈((1 : ℚ) : ℝ)⌉ ⌊((2 : ℚ) : ℝ)⌋ = {1, 2} := by
    have h1 : ⌈((1 : ℚ) : ℝ)⌉ = 1 := by norm_num
    have h2 : ⌊((2 : ℚ) : ℝ)⌋ = 2 := by norm_num
    rw [h1, h2]; decide
  constructor
  · simp only [e, substitute]
    simp [eval, realInterp, bindIdx]
    rw [show Finset.Icc (1 : ℤ) 2 = {1, 2} by decide]
    simp; norm_num
  · simp only [e]
    simp [eval, realInterp, bindIdx]

example : CaptureFree ratInterp "n" (.num 3)
    (.binder .sum (.sym "k") (.num 1) (.sym "n") (.mul [.sym "k", .sym "n"])) := by
  simp [CaptureFree, eval]

/-! ## C19 distributing products over sums -/

theorem eval_distStep (ρ : String → K) (f d : Expr) :
    eval I ρ (distStep f d) = eval I ρ f * eval I ρ d := by
  have inner : ∀ (fj z : Expr), eval I ρ ((addends d).foldr (fun dh tmp => addE tmp (mulE fj dh)) z)
      = eval I ρ z + eval I ρ fj * eval I ρ d := by
    intro fj z
    rw [eval_foldr_addE]
    congr 1
    conv_rhs => rw [← eval_addends I ρ d, ← List.sum_map_mul_left]
    simp [eval_mulE]
  have outer : ∀ (l : List Expr) (z : Expr), eval I ρ (l.foldr (fun fj tmp =>
      (addends d).foldr (fun dh tmp => addE tmp (mulE fj dh)) tmp) z)
      = eval I ρ z + (l.map (eval I ρ)).sum * eval I ρ d := by
    intro l z
    induction l with
    | nil => simp
    | cons a l ih => simp [inner, ih]; ring
  rw [distStep, outer, eval_addends]
  simp [eval]

/-- Distributing multiplication over addition preserves the value of every expression
under every interpretation and valuation. -/
theorem C19_distribute_value (e : Expr) (ρ : String → K) :
    eval I ρ (distribute e) = eval I ρ e := by
  induction e using Expr.ind with
  | add l ih =>
    rw [distribute, eval_foldr_addE]
    simp only [eval, Rat.cast_zero, zero_add]
    congr 1
    exact List.map_congr_left fun a ha => ih a ha
  | mul l ih =>
    rw [distribute]
    cases l with
    | nil => simp [distFactor, eval]
    | cons a l =>
      simp only [distFactor, eval, List.map_cons, List.prod_cons]
      clear ih
      induction l with
      | nil => simp
      | cons b l ih => simp only [List.foldr_cons, eval_distStep, ih, List.map_cons,
          List.prod_cons]; ring
  | _ => simp [distribute]

/-- Specification: a product without sums among its factors (and not a sum itself). -/
def Flat (e : Expr) : Prop := ∀ f ∈ factors e, ∀ l, f ≠ .add l

theorem addends_addE {P : Expr → Prop} (hn : ∀ q, P (.num q)) {a b : Expr}
    (ha : ∀ t ∈ addends a, P t) (hb : ∀ t ∈ addends b, P t) : ∀ t ∈ addends (addE a b), P t := by
  cases a <;> cases b <;> simp only [addE] <;> (try split) <;> simp_all [addends] <;>
    (try (intro t ht; rcases ht with ht | ht <;> simp_all))

theorem flat_mulE {a b : Expr} (ha : Flat a) (hb : Flat b) : Flat (mulE a b) := by
  cases a <;> cases b <;> simp only [mulE] <;> (try split) <;> (try split) <;>
    simp_all [Flat, factors] <;> (try (intro t ht; rcases ht with ht | ht <;> simp_all))

theorem Flat.not_add {a : Expr} (h : Flat a) : addends a = [a] := by
  cases a <;> simp_all [Flat, factors, addends]

theorem flat_distStep {f d : Expr} (hf : ∀ t ∈ addends f, Flat t) (hd : ∀ t ∈ addends d, Flat t) :
    ∀ t ∈ addends (distStep f d), Flat t := by
  have hnum : ∀ q, Flat (.num q) := by intro q; simp [Flat, factors]
  have inner : ∀ fj, Flat fj → ∀ (l : List Expr), (∀ t ∈ l, Flat t) → ∀ z,
      (∀ t ∈ addends z, Flat t) →
      ∀ t ∈ addends (l.foldr (fun dh tmp => addE tmp (mulE fj dh)) z), Flat t := by
    intro fj hfj l hl z hz
    induction l with
    | nil => exact hz
    | cons a l ih =>
      simp only [List.foldr_cons]
      have hm := flat_mulE hfj (hl a (by simp))
      apply addends_addE hnum (ih fun t ht => hl t (by simp [ht]))
      rw [hm.not_add]; simpa using hm
  unfold distStep
  have outer : ∀ (l : List Expr), (∀ t ∈ l, Flat t) → ∀ t ∈ addends (l.foldr (fun fj tmp =>
      (addends d).foldr (fun dh tmp => addE tmp (mulE fj dh)) tmp) (.num 0)), Flat t := by
    intro l hl
    induction l with
    | nil => simp [addends]; exact hnum 0
    | cons a l ih =>
      simp only [List.foldr_cons]
      exact inner a (hl a (by simp)) _ hd _ (ih fun t ht => hl t (by simp [ht]))
  exact outer _ hf

/-- The product of sums of flat products is turned into a sum of flat products: no factor
of any addend of the result is a sum. -/
theorem C19_distribute_shape (l : List Expr) (hl : l ≠ [])
    (h : ∀ f ∈ l, ∀ t ∈ addends f, Flat t) :
    ∀ t ∈ addends (distribute (.mul l)), Flat t := by
  rw [distribute]
  cases l with
  | nil => exact absurd rfl hl
  | cons a l =>
    simp only [distFactor]
    clear hl
    induction l with
    | nil => exact h a (by simp)
    | cons b l ih =>
      simp only [List.foldr_cons]
      refine flat_distStep (h b (by simp)) (ih fun f hf => h f ?_)
      rcases List.mem_cons.mp hf with rfl | hf
      · simp
      · simp [hf]

/-- `(a+b)·(c+1)` satisfies the hypotheses and is really distributed. -/
example : distribute (.mul [.add [.sym "a", .sym "b"], .add [.sym "c", .num 1]])
    = .add [.sym "b", .sym "a", .mul [.sym "c", .sym "b"], .mul [.sym "c", .sym "a"]] := by
  simp [distribute, distFactor, distStep, addends, mulE, addE]

/-- The distribution is one level deep: a sum inside an addend of a factor stays, so
"distributes multiplication over addition" does not hold for nested products. -/
theorem C101_nested_refuted :
    let e := Expr.mul [.add [.mul [.add [.sym "a", .sym "b"], .sym "c"], .sym "d"], .sym "f"]
    ¬ ∀ t ∈ addends (distribute e), Flat t := by
  simp [distribute, distFactor, distStep, addends, mulE, addE, Flat, factors]

/-! ## C15 polynomial part -/

/-- `isolate_polynomial_part` is lossless. -/
theorem C15_isolate_value (x : String) (e : Expr) (ρ : String → K) :
    eval I ρ (isolatePolynomialPart x e).1 + eval I ρ (isolatePolynomialPart x e).2
      = eval I ρ e := by
  cases e with
  | add l =>
    simp only [isolatePolynomialPart, eval]
    induction l with
    | nil => simp [eval]
    | cons a l ih =>
      simp only [List.foldr_cons, List.map_cons, List.sum_cons]
      rw [← ih]
      split <;> simp [eval_addE] <;> ring
  | _ =>
    simp only [isolatePolynomialPart]
    split <;> simp [eval]

/-- ... and what it returns as polynomial part is a polynomial function of `x`. -/
theorem C15_isolate_polynomial (x : String) (e : Expr) (ρ : String → K) :
    ∃ P : Polynomial K, ∀ v, eval I (update ρ x v) (isolatePolynomialPart x e).1
      = Polynomial.aeval v P := by
  cases e with
  | add l =>
    simp only [isolatePolynomialPart]
    induction l with
    | nil => exact ⟨0, by simp [eval]⟩
    | cons a l ih =>
      simp only [List.foldr_cons]
      obtain ⟨P, hP⟩ := ih
      split
      · rename_i h
        obtain ⟨Q, hQ⟩ := C21_polynomial_sound I x a h ρ
        exact ⟨P + Q, fun v => by simp [eval_addE, hP, hQ]⟩
      · exact ⟨P, hP⟩
  | _ =>
    simp only [isolatePolynomialPart]
    split
    · rename_i h; exact C21_polynomial_sound I x _ h ρ
    · exact ⟨0, by simp [eval]⟩

/-! ## C25 non-negativity -/

/-- If `preserves_nonnegativity` answers true, the value is non-negative for all
non-negative values of the symbols (usual real meaning of the operations). -/
theorem C25_preservesNonneg_sound (ξ : ℝ → ℝ) (e : Expr) (h : preservesNonneg e = true)
    (ρ : String → ℝ) (hρ : ∀ s, 0 ≤ ρ s) : 0 ≤ eval (realInterp ξ) ρ e := by
  induction e using Expr.ind with
  | num q =>
    simp [preservesNonneg] at h
    simp only [eval]; exact_mod_cast h.le
  | sym s => simpa [eval] using hρ s
  | add l ih =>
    simp [preservesNonneg] at h
    simp only [eval]
    exact List.sum_nonneg fun a ha => by
      obtain ⟨b, hb, rfl⟩ := List.mem_map.mp ha
      exact ih b hb (h b hb)
  | mul l ih =>
    simp [preservesNonneg] at h
    simp only [eval]
    clear hρ
    induction l with
    | nil => simp
    | cons a l ihl =>
      simp only [List.map_cons, List.prod_cons]
      exact mul_nonneg (ih a (by simp) (h a (by simp)))
        (ihl (fun b hb => ih b (by simp [hb])) fun b hb => h b (by simp [hb]))
  | pow b e hb he =>
    simp [preservesNonneg] at h
    simp only [eval, realInterp]
    exact Real.rpow_nonneg (hb h) _
  | _ => simp [preservesNonneg] at h

example : preservesNonneg (.add [.mul [.num 3, .sym "a"], .pow (.sym "n") (.num (-2))]) = true := by
  simp [preservesNonneg]

end Purrs
