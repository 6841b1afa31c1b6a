import Verif.Model.SimplifyPow
import Verif.Model.RealInterp
import Verif.Props.SimplifyRoot

/-!
# C52: powers

The rules `(b^e)^f = b^{ef}`, `(a b)^e = a^e b^e` and their inverses hold over the real
numbers for positive bases, and for arbitrary bases when the exponents are integers.
-/

namespace Purrs.SimplifyPow

open SimplifyRoot (RealPow realPow_real)

/-- An integer value. -/
def IsInt (x : ℝ) : Prop := ∃ z : ℤ, x = z

theorem isInt_mul {x y : ℝ} : IsInt x → IsInt y → IsInt (x * y)
  | ⟨a, ha⟩, ⟨b, hb⟩ => ⟨a * b, by rw [ha, hb]; push_cast; rfl⟩

theorem isInt_neg {x : ℝ} : IsInt x → IsInt (-x)
  | ⟨a, ha⟩ => ⟨-a, by rw [ha]; push_cast; rfl⟩

theorem isInt_add {x y : ℝ} : IsInt x → IsInt y → IsInt (x + y)
  | ⟨a, ha⟩, ⟨b, hb⟩ => ⟨a + b, by rw [ha, hb]; push_cast; rfl⟩

theorem isInt_one : IsInt 1 := ⟨1, by simp⟩

/-! ## Laws of real powers -/

theorem pow_pow {a x y : ℝ} (h : 0 < a ∨ (IsInt x ∧ IsInt y)) : (a ^ x) ^ y = a ^ (x * y) := by
  rcases h with h | ⟨⟨m, rfl⟩, ⟨k, rfl⟩⟩
  · rw [Real.rpow_mul h.le]
  · rw [← Int.cast_mul, Real.rpow_intCast, Real.rpow_intCast, Real.rpow_intCast, zpow_mul]

theorem mul_pow' {a b x : ℝ} (h : (0 < a ∧ 0 < b) ∨ IsInt x) : (a * b) ^ x = a ^ x * b ^ x := by
  rcases h with ⟨h1, h2⟩ | ⟨m, rfl⟩
  · rw [Real.mul_rpow h1.le h2.le]
  · rw [Real.rpow_intCast, Real.rpow_intCast, Real.rpow_intCast, mul_zpow]

theorem div_pow' {a b x : ℝ} (h : (0 < a ∧ 0 < b) ∨ IsInt x) : (a / b) ^ x = a ^ x * b ^ (-x) := by
  rcases h with ⟨h1, h2⟩ | ⟨m, rfl⟩
  · rw [Real.div_rpow h1.le h2.le, Real.rpow_neg h2.le, div_eq_mul_inv]
  · rw [← Int.cast_neg, Real.rpow_intCast, Real.rpow_intCast, Real.rpow_intCast, div_zpow, zpow_neg, div_eq_mul_inv]

theorem prod_pow {x : ℝ} {l : List ℝ} (h : (∀ a ∈ l, 0 < a) ∨ IsInt x) : l.prod ^ x = (l.map fun a => a ^ x).prod := by
  induction l with
  | nil => simp
  | cons a l ih =>
    rw [List.prod_cons, List.map_cons, List.prod_cons]
    rcases h with h | h
    · have hl : ∀ a ∈ l, 0 < a := fun b hb => h b (by simp [hb])
      rw [mul_pow' (Or.inl ⟨h a (by simp), List.prod_pos hl⟩), ih (Or.inl hl)]
    · rw [mul_pow' (Or.inr h), ih (Or.inr h)]

section
variable {I : Interp ℝ} (hI : RealPow I) (ρ : String → ℝ)

/-! ## Integer exponents -/

/-- Every factor is an integer. -/
def IntF (I : Interp ℝ) (ρ : String → ℝ) (e : Expr) : Prop := ∀ f ∈ factors e, IsInt (eval I ρ f)

theorem isInt_prod {l : List ℝ} (h : ∀ x ∈ l, IsInt x) : IsInt l.prod := by
  induction l with
  | nil => exact ⟨1, by simp⟩
  | cons a l ih =>
    rw [List.prod_cons]
    exact isInt_mul (h a (by simp)) (ih fun x hx => h x (by simp [hx]))

variable {ρ} in
theorem IntF.isInt {e : Expr} (h : IntF I ρ e) : IsInt (eval I ρ e) := by
  rw [← eval_factors I ρ]
  refine isInt_prod ?_
  intro x hx
  obtain ⟨f, hf, rfl⟩ := List.mem_map.mp hx
  exact h f hf

theorem intF_one : IntF I ρ (.num 1) := by
  intro f hf
  simp [factors] at hf
  subst hf
  exact ⟨1, by simp [eval]⟩

variable {ρ} in
theorem intF_mulE {a b : Expr} (ha : IntF I ρ a) (hb : IntF I ρ b) : IntF I ρ (mulE a b) := by
  have hm := isInt_mul ha.isInt hb.isInt
  rw [← eval_mulE] at hm
  revert hm ha hb
  cases a <;> cases b <;> simp only [mulE, IntF, factors] <;> (try split) <;> (try split) <;>
    simp_all [eval, or_imp]

theorem intF_foldl {l : List Expr} {a : Expr} (ha : IntF I ρ a) (h : ∀ f ∈ l, IntF I ρ f) : IntF I ρ (l.foldl mulE a) := by
  induction l generalizing a with
  | nil => exact ha
  | cons f l ih =>
    rw [List.foldl_cons]
    exact ih (intF_mulE ha (h f (by simp))) fun g hg => h g (by simp [hg])

/-! ## `erase_factor` -/

theorem eraseFirst_val {n : String} {l m : List Expr} (h : eraseFirst n l = some m) :
    (l.map (eval I ρ)).prod = (m.map (eval I ρ)).prod * ρ n ∧ ∀ f ∈ m, f ∈ l := by
  induction l generalizing m with
  | nil => simp [eraseFirst] at h
  | cons a l ih =>
    rw [eraseFirst] at h
    by_cases ha : a = .sym n
    · rw [if_pos ha] at h
      cases h
      subst ha
      refine ⟨by simp [eval]; ring, fun f hf => by simp [hf]⟩
    · rw [if_neg ha] at h
      obtain ⟨m', hm', rfl⟩ := Option.map_eq_some_iff.mp h
      obtain ⟨h1, h2⟩ := ih hm'
      refine ⟨by simp [h1]; ring, ?_⟩
      intro f hf
      rcases List.mem_cons.mp hf with rfl | hf
      · simp
      · simp [h2 f hf]

theorem eval_foldl_mulE' {l : List Expr} {a : Expr} : eval I ρ (l.foldl mulE a) = eval I ρ a * (l.map (eval I ρ)).prod := by
  induction l generalizing a with
  | nil => simp
  | cons f l ih => rw [List.foldl_cons, ih, eval_mulE, List.map_cons, List.prod_cons]; ring

theorem eraseFactor_val {n : String} {e e' : Expr} (h : eraseFactor n e = some e') :
    eval I ρ e = eval I ρ e' * ρ n := by
  cases e with
  | mul l =>
    simp only [eraseFactor] at h
    obtain ⟨m, hm, rfl⟩ := Option.map_eq_some_iff.mp h
    rw [eval_foldl_mulE', ← eval_factors I ρ (.mul l), factors, (eraseFirst_val ρ hm).1]
    simp [eval]
  | sym s =>
    simp only [eraseFactor] at h
    split at h
    · rename_i hs
      cases hs
      cases h
      simp [eval]
    · simp at h
  | _ => simp [eraseFactor] at h

/-- Products inside the list are flat. -/
theorem eraseFactor_int {n : String} {e e' : Expr} (h : eraseFactor n e = some e') (hi : IntF I ρ e) : IsInt (eval I ρ e') := by
  cases e with
  | mul l =>
    simp only [eraseFactor] at h
    obtain ⟨m, hm, rfl⟩ := Option.map_eq_some_iff.mp h
    rw [eval_foldl_mulE']
    refine isInt_mul ⟨1, by simp [eval]⟩ (isInt_prod ?_)
    intro x hx
    obtain ⟨f, hf, rfl⟩ := List.mem_map.mp hx
    exact hi f ((eraseFirst_val (I := I) ρ hm).2 f hf)
  | sym s =>
    simp only [eraseFactor] at h
    split at h
    · cases h; exact ⟨1, by simp [eval]⟩
    · simp at h
  | _ => simp [eraseFactor] at h

/-! ## Lawful results -/

/-- Every power met when descending through products and bases has a positive base or an
integer exponent. -/
def Lw (I : Interp ℝ) (ρ : String → ℝ) : Expr → Prop
  | .mul l => ∀ a ∈ l, Lw I ρ a
  | .pow b e => Lw I ρ b ∧ (0 < eval I ρ b ∨ IsInt (eval I ρ e))
  | _ => True

theorem lw_num (q : ℚ) : Lw I ρ (.num q) := by simp [Lw]

variable {ρ} in
theorem lw_mulE {a b : Expr} (ha : Lw I ρ a) (hb : Lw I ρ b) : Lw I ρ (mulE a b) := by
  cases a <;> cases b <;> simp only [mulE] <;> (try split) <;> (try split) <;> simp_all [Lw, or_imp]

variable {ρ} in
theorem lw_powE {a b : Expr} (ha : Lw I ρ a) (h : 0 < eval I ρ a ∨ IsInt (eval I ρ b)) : Lw I ρ (powE a b) := by
  cases a <;> cases b <;> simp only [powE] <;> (try split) <;> (try split) <;> simp_all [Lw]

include hI in
/-- `return_power` denotes `base^(num_exp · not_num_exp)`. -/
theorem returnPower_val {n : String} (isNumeric : Bool) {b u v : Expr} (input : Bool) (hn : IsInt (ρ n)) (hb : Lw I ρ b)
    (h : 0 < eval I ρ b ∨ (IsInt (eval I ρ u) ∧ IntF I ρ v)) :
    eval I ρ (returnPower n isNumeric b u v input) = eval I ρ b ^ (eval I ρ u * eval I ρ v) ∧
      Lw I ρ (returnPower n isNumeric b u v input) := by
  have hn' : IsInt (eval I ρ (.sym n)) := by simpa [eval] using hn
  have pos : ∀ x : ℝ, 0 < eval I ρ b → 0 < eval I ρ b ^ x := fun x h => Real.rpow_pos_of_pos h x
  unfold returnPower
  split
  · -- nothing removed
    by_cases hnum : isNumeric = true
    · rw [if_pos hnum]
      have h1 : 0 < eval I ρ b ∨ (IsInt (eval I ρ u) ∧ IsInt (eval I ρ v)) := h.imp id fun h => ⟨h.1, h.2.isInt⟩
      refine ⟨?_, ?_⟩
      · rw [eval_powE, eval_powE, hI, hI, pow_pow h1]
      · refine lw_powE (lw_powE hb (h1.imp id (·.1))) ?_
        rw [eval_powE, hI]
        exact h1.imp (pos _) (·.2)
    · rw [if_neg hnum]
      refine ⟨by rw [eval_powE, eval_mulE, hI], lw_powE hb ?_⟩
      rw [eval_mulE]
      exact h.imp id fun h => isInt_mul h.1 h.2.isInt
  · rename_i e he
    have he' : eraseFactor n v = some e := by
      cases input <;> simp_all
    have hv := eraseFactor_val (I := I) ρ he'
    have h1 : 0 < eval I ρ b ∨ (IsInt (eval I ρ u) ∧ IsInt (eval I ρ e)) :=
      h.imp id fun h => ⟨h.1, eraseFactor_int ρ he' h.2⟩
    by_cases hnum : isNumeric = true
    · rw [if_pos hnum]
      refine ⟨?_, ?_⟩
      · rw [eval_powE, eval_powE, eval_powE, hI, hI, hI, pow_pow h1, pow_pow, hv, eval, mul_assoc]
        exact h1.imp id fun h => ⟨isInt_mul h.1 h.2, hn'⟩
      · refine lw_powE (lw_powE (lw_powE hb (h1.imp id (·.1))) ?_) (Or.inr hn')
        rw [eval_powE, hI]
        exact h1.imp (pos _) (·.2)
    · rw [if_neg hnum]
      refine ⟨?_, ?_⟩
      · rw [eval_powE, eval_powE, eval_mulE, hI, hI, pow_pow, hv, eval, mul_assoc]
        exact h1.imp id fun h => ⟨isInt_mul h.1 h.2, hn'⟩
      · refine lw_powE (lw_powE hb ?_) (Or.inr hn')
        rw [eval_mulE]
        exact h1.imp id fun h => isInt_mul h.1 h.2

/-! ## Nested powers -/

/-- The innermost base of a nested power. -/
def root : Expr → Expr
  | .pow b _ => root b
  | e => e

/-- The factors of all exponents of a nested power. -/
def expFactors : Expr → List Expr
  | .pow b ex => factors ex ++ expFactors b
  | _ => []

/-- The exponents of a nested power are products of integers. -/
def IntExps (I : Interp ℝ) (ρ : String → ℝ) (e : Expr) : Prop := ∀ f ∈ expFactors e, IntF I ρ f

theorem splitExp_val (e : Expr) (p : Expr × Expr) :
    eval I ρ (splitExp e p).1 * eval I ρ (splitExp e p).2 = eval I ρ e * (eval I ρ p.1 * eval I ρ p.2) := by
  rw [splitExp]; split <;> rw [eval_mulE] <;> ring

theorem splitExp_int {e : Expr} {p : Expr × Expr} (he : IntF I ρ e) (h : IntF I ρ p.1 ∧ IntF I ρ p.2) :
    IntF I ρ (splitExp e p).1 ∧ IntF I ρ (splitExp e p).2 := by
  rw [splitExp]; split
  · exact ⟨intF_mulE h.1 he, h.2⟩
  · exact ⟨h.1, intF_mulE h.2 he⟩

theorem foldr_splitExp (l : List Expr) (p : Expr × Expr) :
    eval I ρ (l.foldr splitExp p).1 * eval I ρ (l.foldr splitExp p).2 =
      (l.map (eval I ρ)).prod * (eval I ρ p.1 * eval I ρ p.2) := by
  induction l with
  | nil => simp
  | cons e l ih => rw [List.foldr_cons, splitExp_val, ih, List.map_cons, List.prod_cons, mul_assoc]

theorem foldr_splitExp_int {l : List Expr} {p : Expr × Expr} (hl : ∀ f ∈ l, IntF I ρ f) (h : IntF I ρ p.1 ∧ IntF I ρ p.2) :
    IntF I ρ (l.foldr splitExp p).1 ∧ IntF I ρ (l.foldr splitExp p).2 := by
  induction l with
  | nil => exact h
  | cons e l ih =>
    rw [List.foldr_cons]
    exact splitExp_int ρ (hl e (by simp)) (ih fun f hf => hl f (by simp [hf]))

theorem realBase_root (e : Expr) (p : Expr × Expr) : (realBase e p).1 = root e := by
  induction e using Expr.ind generalizing p with
  | pow b ex ihb _ => rw [realBase, ihb, root]
  | _ => simp [realBase, root]

theorem realBase_val (e : Expr) (p : Expr × Expr) :
    eval I ρ (realBase e p).2.1 * eval I ρ (realBase e p).2.2 =
      ((expFactors e).map (eval I ρ)).prod * (eval I ρ p.1 * eval I ρ p.2) := by
  induction e using Expr.ind generalizing p with
  | pow b ex ihb _ =>
    rw [realBase, ihb, foldr_splitExp, expFactors, List.map_append, List.prod_append]
    ring
  | _ => simp [realBase, expFactors]

theorem realBase_int {e : Expr} {p : Expr × Expr} (he : IntExps I ρ e) (h : IntF I ρ p.1 ∧ IntF I ρ p.2) :
    IntF I ρ (realBase e p).2.1 ∧ IntF I ρ (realBase e p).2.2 := by
  induction e using Expr.ind generalizing p with
  | pow b ex ihb _ =>
    rw [realBase]
    refine ihb (fun f hf => he f (by simp [expFactors, hf])) ?_
    exact foldr_splitExp_int ρ (fun f hf => he f (by simp [expFactors, hf])) h
  | _ => simpa [realBase] using h

include hI in
/-- A nested power is a power of its innermost base. -/
theorem nested_val {e : Expr} (h : 0 < eval I ρ (root e) ∨ IntExps I ρ e) :
    eval I ρ e = eval I ρ (root e) ^ ((expFactors e).map (eval I ρ)).prod := by
  induction e using Expr.ind with
  | pow b ex ihb _ =>
    have hb : 0 < eval I ρ (root b) ∨ IntExps I ρ b :=
      h.imp (fun h => by simpa [root] using h) fun h f hf => h f (by simp [expFactors, hf])
    rw [eval, hI, ihb hb, root, expFactors, List.map_append, List.prod_append, pow_pow, eval_factors, mul_comm]
    refine h.imp (fun h => by simpa [root] using h) fun h => ⟨?_, ?_⟩
    · refine isInt_prod ?_
      intro x hx
      obtain ⟨f, hf, rfl⟩ := List.mem_map.mp hx
      exact (h f (by simp [expFactors, hf])).isInt
    · rw [← eval_factors I ρ]
      refine isInt_prod ?_
      intro x hx
      obtain ⟨f, hf, rfl⟩ := List.mem_map.mp hx
      exact (h f (by simp [expFactors, hf])).isInt
  | _ => simp [root, expFactors]

/-! ## `simplify_powers` -/

/-- The factors of the innermost base that are raised separately: the opposite `-a` of an
expression counts as one factor. -/
def baseFactors (b : Expr) : List Expr :=
  match b with
  | .mul l => if l.length = 2 ∧ Expr.num (-1) ∈ l then [b] else l
  | b => [b]

theorem isOpposite_iff (l : List Expr) : isOpposite l = true ↔ l.length = 2 ∧ Expr.num (-1) ∈ l := by
  simp [isOpposite]

/-- Condition for rewriting the power `e`: for every factor of its innermost base, either
the factor's own innermost base is positive, or all exponents are products of integers. -/
def PowOk (I : Interp ℝ) (ρ : String → ℝ) (e : Expr) : Prop :=
  ∀ a ∈ baseFactors (root e), Lw I ρ (root a) ∧ (0 < eval I ρ (root a) ∨ (IntExps I ρ e ∧ IntExps I ρ a))

theorem root_not_pow (e b x : Expr) : root e ≠ .pow b x := by
  induction e using Expr.ind with
  | pow c _ ih _ => rw [root]; exact ih
  | _ => simp [root]

theorem root_root (e : Expr) : root (root e) = root e := by
  induction e using Expr.ind with
  | pow c _ ih _ => rw [root]; exact ih
  | _ => simp [root]

theorem expFactors_root (e : Expr) : expFactors (root e) = [] := by
  induction e using Expr.ind with
  | pow c _ ih _ => rw [root]; exact ih
  | _ => simp [root, expFactors]

/-- The exponent of the power as a value. -/
noncomputable def totalExp (I : Interp ℝ) (ρ : String → ℝ) (e : Expr) : ℝ := ((expFactors e).map (eval I ρ)).prod

theorem totalExp_int {e : Expr} (h : IntExps I ρ e) : IsInt (totalExp I ρ e) := by
  refine isInt_prod ?_
  intro x hx
  obtain ⟨f, hf, rfl⟩ := List.mem_map.mp hx
  exact (h f hf).isInt

include hI in
/-- One factor raised to the exponent of the power. -/
theorem powFactor_val {n : String} (hn : IsInt (ρ n)) {e a : Expr} (input : Bool)
    (h : Lw I ρ (root a) ∧ (0 < eval I ρ (root a) ∨ (IntExps I ρ e ∧ IntExps I ρ a))) (p : Expr × Expr)
    (hp : eval I ρ p.1 * eval I ρ p.2 = totalExp I ρ e) (hpi : IntExps I ρ e → IntF I ρ p.1 ∧ IntF I ρ p.2) (b : Bool) :
    eval I ρ (returnPower n b (root a) (realBase a p).2.1 (realBase a p).2.2 input) = eval I ρ a ^ totalExp I ρ e ∧
      Lw I ρ (returnPower n b (root a) (realBase a p).2.1 (realBase a p).2.2 input) := by
  have hr := realBase_val (I := I) ρ a p
  have h1 : 0 < eval I ρ (root a) ∨ (IsInt (eval I ρ (realBase a p).2.1) ∧ IntF I ρ (realBase a p).2.2) :=
    h.2.imp id fun h => by
      have := realBase_int ρ h.2 (hpi h.1)
      exact ⟨this.1.isInt, this.2⟩
  obtain ⟨v, w⟩ := returnPower_val hI ρ b input hn h.1 h1
  refine ⟨?_, w⟩
  rw [v, hr, hp, nested_val hI ρ (e := a) (h.2.imp id (·.2)), pow_pow]
  · exact h.2.imp id fun h => ⟨totalExp_int ρ h.2, totalExp_int ρ h.1⟩

include hI in
/-- Value of `powMul`. -/
theorem powMul_val {n : String} (hn : IsInt (ρ n)) {e : Expr} (input : Bool) {l : List Expr}
    (h : ∀ a ∈ l, Lw I ρ (root a) ∧ (0 < eval I ρ (root a) ∨ (IntExps I ρ e ∧ IntExps I ρ a))) (p : Expr × Expr)
    (hp : eval I ρ p.1 * eval I ρ p.2 = totalExp I ρ e) (hpi : IntExps I ρ e → IntF I ρ p.1 ∧ IntF I ρ p.2) :
    eval I ρ (powMul n l p input) = (l.map fun a => eval I ρ a ^ totalExp I ρ e).prod ∧ Lw I ρ (powMul n l p input) := by
  induction l with
  | nil => exact ⟨by simp [powMul, eval], by simp [powMul, Lw]⟩
  | cons a l ih =>
    obtain ⟨h1, h2⟩ := ih fun a ha => h a (by simp [ha])
    obtain ⟨h3, h4⟩ := powFactor_val hI ρ hn input (h a (by simp)) p hp hpi (isNum (root a))
    rw [powMul, List.foldr_cons]
    rw [powMul] at h1 h2
    refine ⟨?_, ?_⟩
    · rw [eval_mulE, h1, powFactor, realBase_root, h3, List.map_cons, List.prod_cons, mul_comm]
    · rw [powFactor, realBase_root]
      exact lw_mulE h2 h4

include hI in
/-- `simplify_powers` preserves the value of a power. -/
theorem simplifyPowers_val (O : Ops) {n : String} (hn : IsInt (ρ n)) {e : Expr} (h : PowOk I ρ e) (input : Bool) :
    eval I ρ (simplifyPowers O n e input) = eval I ρ e ∧ Lw I ρ (simplifyPowers O n e input) := by
  set p := (realBase e (.num 1, .num 1)).2 with hp
  have hval : eval I ρ p.1 * eval I ρ p.2 = totalExp I ρ e := by
    have := realBase_val (I := I) ρ e (.num 1, .num 1)
    simp only [eval, Rat.cast_one, mul_one] at this
    exact this
  have hint : IntExps I ρ e → IntF I ρ p.1 ∧ IntF I ρ p.2 := fun h =>
    realBase_int ρ h ⟨intF_one ρ, intF_one ρ⟩
  -- the cases where the base is raised as a whole
  have single : ∀ b : Bool, baseFactors (root e) = [root e] →
      eval I ρ (returnPower n b (root e) p.1 p.2 input) = eval I ρ e ∧ Lw I ρ (returnPower n b (root e) p.1 p.2 input) := by
    intro b hbf
    have h1 := h (root e) (by rw [hbf]; simp)
    rw [root_root] at h1
    obtain ⟨v, w⟩ := returnPower_val hI ρ (n := n) b (u := p.1) (v := p.2) input hn h1.1
      (h1.2.imp id fun h => ⟨(hint h.1).1.isInt, (hint h.1).2⟩)
    refine ⟨?_, w⟩
    rw [v, hval, nested_val hI ρ (e := e) (h1.2.imp id (·.1))]
    rfl
  unfold simplifyPowers
  simp only [realBase_root]
  rw [← hp]
  split
  · rename_i l hl
    by_cases ho : isOpposite l = true
    · rw [if_pos ho, ← hl]
      exact single false (by rw [hl, baseFactors]; simp [(isOpposite_iff l).mp ho])
    · rw [if_neg ho]
      have hbf : baseFactors (root e) = l := by
        rw [hl, baseFactors]; rw [if_neg fun h => ho ((isOpposite_iff l).mpr h)]
      have hl' : ∀ a ∈ l, Lw I ρ (root a) ∧ (0 < eval I ρ (root a) ∨ (IntExps I ρ e ∧ IntExps I ρ a)) := by
        intro a ha; exact h a (by rw [hbf]; exact ha)
      obtain ⟨v, w⟩ := powMul_val hI ρ hn input hl' p hval hint
      refine ⟨?_, w⟩
      have hpos : ∀ a ∈ l, 0 < eval I ρ (root a) → 0 < eval I ρ a := by
        intro a _ hpos
        rw [nested_val hI ρ (e := a) (Or.inl hpos)]
        exact Real.rpow_pos_of_pos hpos _
      have hall : (∀ x ∈ l.map (eval I ρ), 0 < x) ∨ IntExps I ρ e := by
        by_cases hi : IntExps I ρ e
        · exact Or.inr hi
        · refine Or.inl ?_
          intro x hx
          obtain ⟨a, ha, rfl⟩ := List.mem_map.mp hx
          rcases (hl' a ha).2 with h | h
          · exact hpos a ha h
          · exact (hi h.1).elim
      have hroot : 0 < eval I ρ (root e) ∨ IntExps I ρ e := by
        refine hall.imp (fun h => ?_) id
        rw [hl, eval]
        exact List.prod_pos h
      rw [v, nested_val hI ρ (e := e) hroot, hl, eval]
      have := prod_pow (x := totalExp I ρ e) (l := l.map fun a => eval I ρ a) (hall.imp id (totalExp_int ρ))
      rw [List.map_map] at this
      exact this.symm
  · rename_i q hq
    rw [← hq]
    exact single _ (by rw [hq]; simp [baseFactors])
  · rename_i h1 h2
    refine single _ ?_
    unfold baseFactors
    split
    · rename_i l hl
      exact (h1 l hl).elim
    · rfl

/-! ## Collecting equal exponents -/

/-- A pair that may be combined with others. -/
def PairOk (I : Interp ℝ) (ρ : String → ℝ) (p : Expr × Expr) : Prop :=
  Lw I ρ p.1 ∧ (0 < eval I ρ p.1 ∨ IsInt (eval I ρ p.2))

/-- The value of a pair of base and exponent. -/
noncomputable def pairVal (I : Interp ℝ) (ρ : String → ℝ) (p : Expr × Expr) : ℝ := eval I ρ p.1 ^ eval I ρ p.2

/-- Assumptions on the operations that are not modelled, at one valuation. -/
structure OpsOk (I : Interp ℝ) (ρ : String → ℝ) (O : Ops) : Prop where
  nd : ∀ b, eval I ρ (O.nd b) = eval I ρ b ∧ (Lw I ρ b → Lw I ρ (O.nd b))
  opposite : ∀ a b, O.opposite a b = true → eval I ρ a = - eval I ρ b

theorem pairVal_zero (b : Expr) : pairVal I ρ (b, .num 0) = 1 := by simp [pairVal, eval]

theorem pairOk_zero {p : Expr × Expr} (h : PairOk I ρ p) : PairOk I ρ (p.1, .num 0) :=
  ⟨h.1, Or.inr ⟨0, by simp [eval]⟩⟩

include hI in
theorem eval_quo (a b : Expr) : eval I ρ (quo a b) = eval I ρ a / eval I ρ b := by
  rw [quo, eval_mulE, eval_powE, hI, eval]
  have : (((-1 : ℚ) : ℚ) : ℝ) = ((-1 : ℤ) : ℝ) := by simp
  rw [this, Real.rpow_intCast, zpow_neg_one, div_eq_mul_inv]

variable {ρ} in
theorem lw_quo {a b : Expr} (ha : Lw I ρ a) (hb : Lw I ρ b) : Lw I ρ (quo a b) :=
  lw_mulE ha (lw_powE hb (Or.inr ⟨-1, by simp [eval]⟩))

/-- Two pairs with the same exponent. -/
theorem same_exp {p q : Expr × Expr} (h : q.2 = p.2) (hp : PairOk I ρ p) (hq : PairOk I ρ q) :
    pairVal I ρ (mulE p.1 q.1, p.2) = pairVal I ρ p * pairVal I ρ q ∧ PairOk I ρ (mulE p.1 q.1, p.2) := by
  have hc : (0 < eval I ρ p.1 ∧ 0 < eval I ρ q.1) ∨ IsInt (eval I ρ p.2) := by
    rcases hp.2 with h1 | h1
    · rcases hq.2 with h2 | h2
      · exact Or.inl ⟨h1, h2⟩
      · exact Or.inr (h ▸ h2)
    · exact Or.inr h1
  refine ⟨?_, lw_mulE hp.1 hq.1, ?_⟩
  · simp only [pairVal, eval_mulE, h]
    exact mul_pow' hc
  · simp only [eval_mulE]
    exact hc.imp (fun h => mul_pos h.1 h.2) id

include hI in
/-- Two pairs with opposite exponents. -/
theorem opp_exp {p q : Expr × Expr} (h : eval I ρ q.2 = - eval I ρ p.2) (hp : PairOk I ρ p) (hq : PairOk I ρ q) :
    pairVal I ρ (quo p.1 q.1, p.2) = pairVal I ρ p * pairVal I ρ q ∧ PairOk I ρ (quo p.1 q.1, p.2) := by
  have hc : (0 < eval I ρ p.1 ∧ 0 < eval I ρ q.1) ∨ IsInt (eval I ρ p.2) := by
    rcases hp.2 with h1 | h1
    · rcases hq.2 with h2 | h2
      · exact Or.inl ⟨h1, h2⟩
      · refine Or.inr ?_
        rw [h] at h2
        simpa using isInt_neg h2
    · exact Or.inr h1
  refine ⟨?_, lw_quo hp.1 hq.1, ?_⟩
  · simp only [pairVal, eval_quo hI, h]
    exact div_pow' hc
  · simp only [eval_quo hI]
    exact hc.imp (fun h => div_pos h.1 h.2) id

/-- The product of the pairs. -/
noncomputable def pairsVal (I : Interp ℝ) (ρ : String → ℝ) (l : List (Expr × Expr)) : ℝ := (l.map (pairVal I ρ)).prod

theorem pairsVal_cons (p : Expr × Expr) (l : List (Expr × Expr)) : pairsVal I ρ (p :: l) = pairVal I ρ p * pairsVal I ρ l := by
  simp [pairsVal]

include hI in
theorem absorbExp_val {O : Ops} (hO : OpsOk I ρ O) (n : String) (onlyN : Bool) {p : Expr × Expr} {l : List (Expr × Expr)}
    (hp : PairOk I ρ p) (hl : ∀ q ∈ l, PairOk I ρ q) :
    pairVal I ρ (absorbExp O n onlyN p l).1 * pairsVal I ρ (absorbExp O n onlyN p l).2 = pairVal I ρ p * pairsVal I ρ l ∧
      PairOk I ρ (absorbExp O n onlyN p l).1 ∧ (∀ q ∈ (absorbExp O n onlyN p l).2, PairOk I ρ q) ∧
      (absorbExp O n onlyN p l).2.length = l.length := by
  induction l generalizing p with
  | nil => exact ⟨rfl, hp, by simp [absorbExp], rfl⟩
  | cons q l ih =>
    have hq : PairOk I ρ q := hl q (by simp)
    have hl' : ∀ q ∈ l, PairOk I ρ q := fun r hr => hl r (by simp [hr])
    have keep : ∀ {r : (Expr × Expr) × List (Expr × Expr)} {p' q' : Expr × Expr},
        pairVal I ρ p' * pairVal I ρ q' = pairVal I ρ p * pairVal I ρ q → PairOk I ρ q' →
        (pairVal I ρ r.1 * pairsVal I ρ r.2 = pairVal I ρ p' * pairsVal I ρ l ∧ PairOk I ρ r.1 ∧ (∀ q ∈ r.2, PairOk I ρ q) ∧
          r.2.length = l.length) →
        pairVal I ρ r.1 * pairsVal I ρ (q' :: r.2) = pairVal I ρ p * pairsVal I ρ (q :: l) ∧ PairOk I ρ r.1 ∧
          (∀ q ∈ q' :: r.2, PairOk I ρ q) ∧ (q' :: r.2).length = (q :: l).length := by
      intro r p' q' e1 e2 ⟨h1, h2, h3, h4⟩
      refine ⟨?_, h2, ?_, by simp [h4]⟩
      · rw [pairsVal_cons, pairsVal_cons]
        linear_combination pairVal I ρ q' * h1 + pairsVal I ρ l * e1
      · intro s hs
        rcases List.mem_cons.mp hs with rfl | hs
        · exact e2
        · exact h3 s hs
    rw [absorbExp]
    by_cases h1 : q.2 = p.2
    · rw [if_pos h1]
      split
      · obtain ⟨v, w⟩ := same_exp ρ h1 hp hq
        exact keep (by rw [pairVal_zero, v, mul_one]) (pairOk_zero ρ hq) (ih w hl')
      · exact keep rfl hq (ih hp hl')
    · rw [if_neg h1]
      by_cases h2 : O.opposite q.2 p.2 = true
      · rw [if_pos h2]
        have ho := hO.opposite _ _ h2
        refine keep (p' := if nops q.2 > nops p.2 then (quo p.1 q.1, p.2) else (quo q.1 p.1, q.2)) ?_ (pairOk_zero ρ hq)
          (ih ?_ hl')
        · rw [pairVal_zero, mul_one]
          split
          · exact (opp_exp hI ρ ho hp hq).1
          · rw [(opp_exp hI ρ (p := q) (q := p) (by rw [ho, neg_neg]) hq hp).1, mul_comm]
        · split
          · exact (opp_exp hI ρ ho hp hq).2
          · exact (opp_exp hI ρ (p := q) (q := p) (by rw [ho, neg_neg]) hq hp).2
      · rw [if_neg h2]
        exact keep rfl hq (ih hp hl')

include hI in
theorem collectExp_val {O : Ops} (hO : OpsOk I ρ O) (n : String) (onlyN : Bool) {k : ℕ} {l : List (Expr × Expr)} (hk : l.length ≤ k)
    (hl : ∀ q ∈ l, PairOk I ρ q) {acc : Expr} (ha : Lw I ρ acc) :
    eval I ρ (collectExp O n onlyN k l acc) = eval I ρ acc * pairsVal I ρ l ∧ Lw I ρ (collectExp O n onlyN k l acc) := by
  induction k generalizing l acc with
  | zero =>
    have : l = [] := List.length_eq_zero_iff.mp (by omega)
    subst this
    exact ⟨by simp [collectExp, pairsVal], ha⟩
  | succ k ih =>
    cases l with
    | nil => exact ⟨by simp [collectExp, pairsVal], ha⟩
    | cons p l =>
      obtain ⟨h1, h2, h3, h4⟩ := absorbExp_val hI ρ hO n onlyN (l := l) (hl p (by simp)) (fun q hq => hl q (by simp [hq]))
      obtain ⟨n1, n2⟩ := hO.nd (absorbExp O n onlyN p l).1.1
      have hw : Lw I ρ (powE (O.nd (absorbExp O n onlyN p l).1.1) (absorbExp O n onlyN p l).1.2) :=
        lw_powE (n2 h2.1) (by rw [n1]; exact h2.2)
      obtain ⟨g1, g2⟩ := ih (l := (absorbExp O n onlyN p l).2) (by rw [h4]; simp at hk; omega) h3 (lw_mulE ha hw)
      rw [collectExp]
      refine ⟨?_, g2⟩
      rw [g1, eval_mulE, eval_powE, hI, n1, pairsVal_cons, ← h1, pairVal]
      ring

theorem rest_val {l : List Expr} {z : Expr} :
    eval I ρ (l.foldr (fun f acc => if isRest f then mulE acc f else acc) z) =
      eval I ρ z * ((l.filter isRest).map (eval I ρ)).prod := by
  induction l with
  | nil => simp
  | cons f l ih =>
    rw [List.foldr_cons]
    by_cases h : isRest f = true
    · rw [if_pos h, eval_mulE, ih, List.filter_cons_of_pos h, List.map_cons, List.prod_cons]; ring
    · rw [if_neg h, ih, List.filter_cons_of_neg h]

theorem rest_lw {l : List Expr} {z : Expr} (hz : Lw I ρ z) (hl : ∀ f ∈ l, Lw I ρ f) :
    Lw I ρ (l.foldr (fun f acc => if isRest f then mulE acc f else acc) z) := by
  induction l with
  | nil => exact hz
  | cons f l ih =>
    have := ih fun g hg => hl g (by simp [hg])
    rw [List.foldr_cons]
    split
    · exact lw_mulE this (hl f (by simp))
    · exact this

include hI in
theorem asPair_val {f : Expr} {p : Expr × Expr} (h : asPair f = some p) : pairVal I ρ p = eval I ρ f ∧ (Lw I ρ f → PairOk I ρ p) := by
  unfold asPair at h
  by_cases h1 : f = .num (-1)
  · rw [if_pos h1] at h
    cases h
    subst h1
    refine ⟨by simp [pairVal, eval], fun _ => ⟨by simp [Lw], Or.inr ⟨1, by simp [eval]⟩⟩⟩
  · rw [if_neg h1] at h
    cases f with
    | pow b e =>
      simp only [Option.some.injEq] at h
      subst h
      refine ⟨by rw [pairVal, eval, hI], fun h => ?_⟩
      rw [Lw] at h
      exact h
    | _ => simp at h

theorem basesExps_reverse (l : List Expr) : (basesExps l).reverse = l.filterMap asPair := by
  simp [basesExps, List.filterMap_reverse]

include hI in
/-- The pairs and the remaining factors make up the product. -/
theorem split_val (l : List Expr) :
    pairsVal I ρ (l.filterMap asPair) * ((l.filter isRest).map (eval I ρ)).prod = (l.map (eval I ρ)).prod := by
  induction l with
  | nil => simp [pairsVal]
  | cons f l ih =>
    rw [List.map_cons, List.prod_cons, ← ih]
    cases h : asPair f with
    | none =>
      have hr : isRest f = true := by simp [isRest, h]
      rw [List.filterMap_cons_none h, List.filter_cons_of_pos hr, List.map_cons, List.prod_cons]; ring
    | some p =>
      have hr : ¬ isRest f = true := by simp [isRest, h]
      rw [List.filterMap_cons_some h, List.filter_cons_of_neg hr, pairsVal_cons, (asPair_val hI ρ h).1]; ring

include hI in
/-- `collect_same_exponents` preserves the value of a product of lawful factors. -/
theorem collectSameExponents_val {O : Ops} (hO : OpsOk I ρ O) (n : String) (onlyN : Bool) {l : List Expr} (hl : ∀ f ∈ l, Lw I ρ f) :
    eval I ρ (collectSameExponents O n onlyN l) = eval I ρ (.mul l) ∧ Lw I ρ (collectSameExponents O n onlyN l) := by
  rw [collectSameExponents]
  simp only [basesExps_reverse]
  have hp : ∀ q ∈ l.filterMap asPair, PairOk I ρ q := by
    intro q hq
    obtain ⟨f, hf, hq⟩ := List.mem_filterMap.mp hq
    exact (asPair_val hI ρ hq).2 (hl f hf)
  obtain ⟨h1, h2⟩ := collectExp_val hI ρ hO n onlyN (le_refl _) hp (acc := .num 1) (lw_num ρ 1)
  refine ⟨?_, rest_lw ρ h2 hl⟩
  rw [rest_val, h1, mul_assoc, split_val hI ρ]
  simp [eval]

/-! ## Collecting equal bases -/

/-- Two pairs with the same base. -/
theorem same_base {p q : Expr × Expr} (h : q.1 = p.1) (h0 : 0 < eval I ρ p.1 ∨ eval I ρ p.1 ≠ 0 ∧ IsInt (eval I ρ p.2) ∧ IsInt (eval I ρ q.2)) :
    pairVal I ρ (p.1, addE p.2 q.2) = pairVal I ρ p * pairVal I ρ q := by
  simp only [pairVal, eval_addE, h]
  rcases h0 with h0 | ⟨h0, ⟨a, ha⟩, ⟨b, hb⟩⟩
  · exact Real.rpow_add h0 _ _
  · rw [ha, hb, ← Int.cast_add, Real.rpow_intCast, Real.rpow_intCast, Real.rpow_intCast, zpow_add₀ h0]

/-- A pair that may be combined with others of the same base. -/
def BaseOk (I : Interp ℝ) (ρ : String → ℝ) (p : Expr × Expr) : Prop :=
  0 < eval I ρ p.1 ∨ eval I ρ p.1 ≠ 0 ∧ IsInt (eval I ρ p.2)

theorem absorbBase_val {p : Expr × Expr} {l : List (Expr × Expr)} (hp : BaseOk I ρ p) (hl : ∀ q ∈ l, BaseOk I ρ q) :
    pairVal I ρ (absorbBase p l).1 * pairsVal I ρ (absorbBase p l).2 = pairVal I ρ p * pairsVal I ρ l ∧
      BaseOk I ρ (absorbBase p l).1 ∧ (∀ q ∈ (absorbBase p l).2, BaseOk I ρ q) ∧ (absorbBase p l).2.length = l.length ∧
      (∀ q ∈ (absorbBase p l).1 :: (absorbBase p l).2, ∃ r ∈ p :: l, q.1 = r.1) := by
  induction l generalizing p with
  | nil => exact ⟨rfl, hp, by simp [absorbBase], rfl, by simp [absorbBase]⟩
  | cons q l ih =>
    have hq : BaseOk I ρ q := hl q (by simp)
    have hl' : ∀ q ∈ l, BaseOk I ρ q := fun r hr => hl r (by simp [hr])
    rw [absorbBase]
    by_cases h : q.1 = p.1
    · rw [if_pos h]
      have hc : 0 < eval I ρ p.1 ∨ eval I ρ p.1 ≠ 0 ∧ IsInt (eval I ρ p.2) ∧ IsInt (eval I ρ q.2) := by
        rcases hp with h1 | h1
        · exact Or.inl h1
        · rcases hq with h2 | h2
          · exact Or.inl (h ▸ h2)
          · exact Or.inr ⟨h1.1, h1.2, h2.2⟩
      have hb : BaseOk I ρ (p.1, addE p.2 q.2) := hc.imp id fun h => ⟨h.1, by
        simp only [eval_addE]; exact isInt_add h.2.1 h.2.2⟩
      obtain ⟨h1, h2, h3, h4, h5⟩ := ih hb hl'
      refine ⟨?_, h2, ?_, by simp [h4], ?_⟩
      · rw [pairsVal_cons, pairsVal_cons, pairVal_zero, one_mul, h1, same_base ρ h hc, mul_assoc]
      · intro s hs
        rcases List.mem_cons.mp hs with rfl | hs
        · exact hq.imp id fun h => ⟨h.1, ⟨0, by simp [eval]⟩⟩
        · exact h3 s hs
      · intro s hs
        simp only [List.mem_cons] at hs
        rcases hs with rfl | rfl | hs
        · obtain ⟨r, hr, e⟩ := h5 _ List.mem_cons_self
          rcases List.mem_cons.mp hr with rfl | hr
          · exact ⟨p, by simp, e⟩
          · exact ⟨r, by simp [hr], e⟩
        · exact ⟨q, by simp, rfl⟩
        · obtain ⟨r, hr, e⟩ := h5 s (by simp [hs])
          rcases List.mem_cons.mp hr with rfl | hr
          · exact ⟨p, by simp, e⟩
          · exact ⟨r, by simp [hr], e⟩
    · rw [if_neg h]
      obtain ⟨h1, h2, h3, h4, h5⟩ := ih hp hl'
      refine ⟨?_, h2, ?_, by simp [h4], ?_⟩
      · rw [pairsVal_cons, pairsVal_cons]
        linear_combination pairVal I ρ q * h1
      · intro s hs
        rcases List.mem_cons.mp hs with rfl | hs
        · exact hq
        · exact h3 s hs
      · intro s hs
        simp only [List.mem_cons] at hs
        rcases hs with rfl | rfl | hs
        · obtain ⟨r, hr, e⟩ := h5 _ List.mem_cons_self
          rcases List.mem_cons.mp hr with rfl | hr
          · exact ⟨r, by simp, e⟩
          · exact ⟨r, by simp [hr], e⟩
        · exact ⟨s, by simp, rfl⟩
        · obtain ⟨r, hr, e⟩ := h5 s (by simp [hs])
          rcases List.mem_cons.mp hr with rfl | hr
          · exact ⟨r, by simp, e⟩
          · exact ⟨r, by simp [hr], e⟩

include hI in
theorem collectBase_val {k : ℕ} {l : List (Expr × Expr)} (hk : l.length ≤ k) (hl : ∀ q ∈ l, BaseOk I ρ q) {acc : Expr} :
    eval I ρ (collectBase k l acc).1 = eval I ρ acc * pairsVal I ρ l ∧
      ∀ q ∈ (collectBase k l acc).2, BaseOk I ρ q ∧ ∃ r ∈ l, q.1 = r.1 := by
  induction k generalizing l acc with
  | zero =>
    have : l = [] := List.length_eq_zero_iff.mp (by omega)
    subst this
    exact ⟨by simp [collectBase, pairsVal], by simp [collectBase]⟩
  | succ k ih =>
    cases l with
    | nil => exact ⟨by simp [collectBase, pairsVal], by simp [collectBase]⟩
    | cons p l =>
      obtain ⟨h1, h2, h3, h4, h5⟩ := absorbBase_val ρ (l := l) (hl p (by simp)) (fun q hq => hl q (by simp [hq]))
      obtain ⟨g1, g2⟩ := ih (l := (absorbBase p l).2) (by rw [h4]; simp at hk; omega) h3
        (acc := mulE acc (powE (absorbBase p l).1.1 (absorbBase p l).1.2))
      rw [collectBase]
      refine ⟨?_, ?_⟩
      · simp only
        rw [g1, eval_mulE, eval_powE, hI, pairsVal_cons, ← h1, pairVal]
        ring
      · intro q hq
        rcases List.mem_cons.mp hq with rfl | hq
        · exact ⟨h2, h5 _ List.mem_cons_self⟩
        · obtain ⟨hb, r, hr, e⟩ := g2 q hq
          obtain ⟨r', hr', e'⟩ := h5 r (by simp [hr])
          exact ⟨hb, r', hr', e.trans e'⟩

theorem matchBase_none {f : Expr} {ps : List (Expr × Expr)} (h : ∀ q ∈ ps, q.1 ≠ f) : matchBase f ps = none := by
  induction ps with
  | nil => rfl
  | cons q ps ih =>
    rw [matchBase, ih fun r hr => h r (by simp [hr])]
    simp [h q (by simp)]

/-- Binder indices are symbols. -/
def symIdx : Expr → Bool
  | .add l => (l.map fun a => symIdx a).all id
  | .mul l => (l.map fun a => symIdx a).all id
  | .pow b e => symIdx b && symIdx e
  | .fn _ l => (l.map fun a => symIdx a).all id
  | .binder _ i lo up body => (match i with | .sym _ => true | _ => false) && symIdx lo && symIdx up && symIdx body
  | _ => true

/-- Replacing an expression that does not occur keeps the value. -/
theorem substitute_absent {s r e : Expr} (h : has s e = false) (hs : symIdx e = true) (ρ : String → ℝ) :
    eval I ρ (substitute s r e) = eval I ρ e := by
  have ne : ∀ {e}, has s e = false → ¬ e = s := by
    intro e h he
    subst he
    rw [has.eq_def] at h
    simp at h
  induction e using Expr.ind generalizing ρ with
  | num q => rw [substitute, if_neg (ne h)]
  | const q => rw [substitute, if_neg (ne h)]
  | sym q => rw [substitute, if_neg (ne h)]
  | add l ih =>
    rw [substitute, if_neg (ne h)]
    rw [has] at h
    simp only [Bool.or_eq_false_iff, List.any_eq_false, List.mem_map, forall_exists_index, and_imp, id] at h
    simp only [symIdx, List.all_eq_true, List.mem_map, forall_exists_index, and_imp, id] at hs
    rw [eval_foldr_addE, eval]
    have : (l.map fun a => eval I ρ (substitute s r a)) = l.map fun a => eval I ρ a := by
      refine List.map_congr_left fun a ha => ih a ha ?_ (hs _ a ha rfl) ρ
      simpa using h.2 _ a ha rfl
    rw [this]; simp [eval]
  | mul l ih =>
    rw [substitute, if_neg (ne h)]
    rw [has] at h
    simp only [Bool.or_eq_false_iff, List.any_eq_false, List.mem_map, forall_exists_index, and_imp, id] at h
    simp only [symIdx, List.all_eq_true, List.mem_map, forall_exists_index, and_imp, id] at hs
    rw [eval_foldr_mulE, eval]
    have : (l.map fun a => eval I ρ (substitute s r a)) = l.map fun a => eval I ρ a := by
      refine List.map_congr_left fun a ha => ih a ha ?_ (hs _ a ha rfl) ρ
      simpa using h.2 _ a ha rfl
    rw [this]; simp [eval]
  | pow b e ihb ihe =>
    rw [substitute, if_neg (ne h)]
    rw [has] at h
    simp only [Bool.or_eq_false_iff] at h
    simp only [symIdx, Bool.and_eq_true] at hs
    rw [eval_powE, ihb h.2.1 hs.1, ihe h.2.2 hs.2, eval]
  | fn f l ih =>
    rw [substitute, if_neg (ne h)]
    rw [has] at h
    simp only [Bool.or_eq_false_iff, List.any_eq_false, List.mem_map, forall_exists_index, and_imp, id] at h
    simp only [symIdx, List.all_eq_true, List.mem_map, forall_exists_index, and_imp, id] at hs
    simp only [eval, List.map_map]
    congr 1
    refine List.map_congr_left fun a ha => ih a ha ?_ (hs _ a ha rfl) ρ
    simpa using h.2 _ a ha rfl
  | binder k i lo up body ihi ihl ihu ihb =>
    rw [substitute, if_neg (ne h)]
    rw [has] at h
    simp only [Bool.or_eq_false_iff] at h
    obtain ⟨-, ⟨⟨hi, hl⟩, hu⟩, hb⟩ := h
    cases i with
    | sym t =>
      simp only [symIdx, Bool.and_eq_true] at hs
      obtain ⟨⟨⟨-, h2⟩, h3⟩, h4⟩ := hs
      rw [substitute.eq_def s r (.sym t), if_neg (ne hi)]
      simp only [eval]
      rw [ihl hl h2, ihu hu h3]
      congr 1
      funext v
      exact ihb hb h4 _
    | _ => simp [symIdx] at hs

/-- The expression occurs in the product exactly once, as a factor. -/
def Once (old acc : Expr) : Prop :=
  ∃ l₁ l₂, acc = .mul (l₁ ++ old :: l₂) ∧ l₁ ++ l₂ ≠ [] ∧ ∀ g ∈ l₁ ++ l₂, has old g = false ∧ symIdx g = true

/-- Rule `C1` applied to a product containing the power once. -/
theorem once_subst {old new acc : Expr} (h : Once old acc ∨ acc = old) {v : ℝ} (hv : eval I ρ new = eval I ρ old * v) :
    eval I ρ (substitute old new acc) = eval I ρ acc * v := by
  rcases h with ⟨l₁, l₂, rfl, hne, h⟩ | rfl
  · have hsz : Expr.mul (l₁ ++ old :: l₂) ≠ old := by
      intro he
      have : sizeOf old < sizeOf (Expr.mul (l₁ ++ old :: l₂)) := by
        have := List.sizeOf_lt_of_mem (show old ∈ l₁ ++ old :: l₂ by simp)
        simp only [Expr.mul.sizeOf_spec]
        omega
      rw [he] at this
      omega
    rw [substitute, if_neg hsz]
    rw [eval_foldr_mulE, eval]
    have same : ∀ l : List Expr, (∀ g ∈ l, has old g = false ∧ symIdx g = true) →
        (l.map fun a => eval I ρ (substitute old new a)) = l.map fun a => eval I ρ a := fun l hl =>
      List.map_congr_left fun a ha => substitute_absent (hl a ha).1 (hl a ha).2 ρ
    have self : substitute old new old = new := by rw [substitute.eq_def, if_pos rfl]
    rw [List.map_append, List.map_cons, self, hv, List.prod_append, List.prod_cons,
      same l₁ fun g hg => h g (by simp [hg]), same l₂ fun g hg => h g (by simp [hg])]
    simp only [eval, Rat.cast_one, List.map_append, List.map_cons, List.prod_append, List.prod_cons]
    ring
  · rw [substitute.eq_def, if_pos rfl, hv]

theorem matchBase_some {f : Expr} {ps : List (Expr × Expr)} {r : Expr × Expr} (h : matchBase f ps = some r) :
    ∃ q ∈ ps, q.1 = f ∧ r = (powE q.1 q.2, plusOne q.1 q.2) := by
  induction ps with
  | nil => simp [matchBase] at h
  | cons q ps ih =>
    rw [matchBase] at h
    split at h
    · rename_i r' hr'
      cases h
      obtain ⟨q', hq', e⟩ := ih hr'
      exact ⟨q', by simp [hq'], e⟩
    · split at h
      · rename_i hc
        cases h
        exact ⟨q, by simp, hc.1, rfl⟩
      · simp at h

include hI in
/-- The new power of rule `C1`. -/
theorem plusOne_val {q : Expr × Expr} (h : BaseOk I ρ q) :
    eval I ρ (plusOne q.1 q.2) = eval I ρ (powE q.1 q.2) * eval I ρ q.1 := by
  obtain ⟨b, e⟩ := q
  have hs : eval I ρ (powE b (addE e (.num 1))) = eval I ρ (powE b e) * eval I ρ b := by
    rw [eval_powE, eval_powE, eval_addE, hI, hI]
    have h1 : eval I ρ (.num 1) = 1 := by simp [eval]
    rw [h1]
    rcases h with h | ⟨h0, ⟨z, hz⟩⟩
    · rw [Real.rpow_add h, Real.rpow_one]
    · simp only at hz h0
      rw [hz]
      have : (z : ℝ) + 1 = ((z + 1 : ℤ) : ℝ) := by push_cast; rfl
      rw [this, Real.rpow_intCast, Real.rpow_intCast, zpow_add_one₀ h0]
  simp only
  unfold plusOne
  split
  · split
    · exact hs
    · rw [eval_mulE]
  · exact hs

/-- At every application of rule `C1` the power that is replaced occurs exactly once in
the product built so far, as a factor. -/
def FoldOk (ps : List (Expr × Expr)) : List Expr → Expr → Prop
  | [], _ => True
  | f :: l, z => FoldOk ps l z ∧
      ∀ r, isRest f = true → matchBase f ps = some r → Once r.1 (l.foldr (baseStep ps) z) ∨ l.foldr (baseStep ps) z = r.1

include hI in
theorem baseStep_val {ps : List (Expr × Expr)} (hps : ∀ q ∈ ps, BaseOk I ρ q) {l : List Expr} {z : Expr} (h : FoldOk ps l z) :
    eval I ρ (l.foldr (baseStep ps) z) = eval I ρ z * ((l.filter isRest).map (eval I ρ)).prod := by
  induction l with
  | nil => simp
  | cons f l ih =>
    obtain ⟨h1, h2⟩ := h
    have ih' := ih h1
    rw [List.foldr_cons, baseStep]
    by_cases hf : isRest f = true
    · rw [if_pos hf, List.filter_cons_of_pos hf, List.map_cons, List.prod_cons]
      cases hm : matchBase f ps with
      | none =>
        simp only [eval_mulE, ih']
        ring
      | some r =>
        obtain ⟨q, hq, e1, e2⟩ := matchBase_some hm
        simp only
        rw [once_subst ρ (v := eval I ρ f) (h2 r hf hm), ih']
        · ring
        · rw [e2, ← e1]; exact plusOne_val hI ρ (hps q hq)
    · rw [if_neg hf, ih', List.filter_cons_of_neg hf]

/-- A factor of a product whose powers may be combined: a power of a positive base, or an
integer power of a non-zero base. -/
def Combinable (I : Interp ℝ) (ρ : String → ℝ) (f : Expr) : Prop :=
  ∀ b e, f = .pow b e → 0 < eval I ρ b ∨ eval I ρ b ≠ 0 ∧ IsInt (eval I ρ e)

/-- The condition of `FoldOk` for the whole function. -/
def Separate (l : List Expr) : Prop :=
  let r := collectBase (l.filterMap asPair).length (l.filterMap asPair) (.num 1)
  FoldOk r.2 l r.1

include hI in
theorem collectSameBase_val {l : List Expr} (hl : ∀ f ∈ l, Combinable I ρ f) (hc : Separate l) :
    eval I ρ (collectSameBase l) = eval I ρ (.mul l) := by
  rw [collectSameBase]
  simp only [basesExps_reverse]
  have hp : ∀ q ∈ l.filterMap asPair, BaseOk I ρ q := by
    intro q hq
    obtain ⟨f, hf, hq⟩ := List.mem_filterMap.mp hq
    unfold asPair at hq
    by_cases h1 : f = .num (-1)
    · rw [if_pos h1] at hq
      cases hq
      subst h1
      exact Or.inr ⟨by simp [eval], ⟨1, by simp [eval]⟩⟩
    · rw [if_neg h1] at hq
      cases f with
      | pow b e =>
        simp only [Option.some.injEq] at hq
        subst hq
        exact hl _ hf b e rfl
      | _ => simp at hq
  obtain ⟨h1, h2⟩ := collectBase_val hI ρ (le_refl _) hp (acc := .num 1)
  rw [baseStep_val hI ρ (fun q hq => (h2 q hq).1) hc, h1, mul_assoc, split_val hI ρ]
  simp [eval]

/-! ## The driver for input -/

/-- Sums and products depend only on the body at integers. -/
def IntBind (I : Interp ℝ) : Prop :=
  ∀ k lo up (f g : ℝ → ℝ), (∀ z : ℤ, f z = g z) → I.bind k lo up f = I.bind k lo up g

theorem intBind_real (ξ : ℝ → ℝ) : IntBind (realInterp ξ) := by
  intro k lo up f g h
  cases k
  · simp only [realInterp]; exact Finset.sum_congr rfl fun z _ => h z
  · simp only [realInterp]; exact Finset.prod_congr rfl fun z _ => h z

/-- Every power that the driver reaches may be rewritten, also for all integer values of
the bound variables above it. -/
def Good (I : Interp ℝ) : (String → ℝ) → Expr → Prop
  | ρ, .add l => ∀ a ∈ l, Good I ρ a
  | ρ, .mul l => ∀ a ∈ l, Good I ρ a
  | ρ, .pow b e => PowOk I ρ (.pow b e)
  | ρ, .fn _ l => ∀ a ∈ l, Good I ρ a
  | ρ, .binder _ i lo up body =>
      (∃ s, i = .sym s) ∧ Good I ρ lo ∧ Good I ρ up ∧ ∀ z : ℤ, Good I (bindIdx ρ i (z : ℝ)) body
  | _, _ => True

/-- GiNaC's `expand` keeps the value, does not create powers outside the domain of the
rules and leaves symbols alone. -/
structure ExpandOk (I : Interp ℝ) (O : Ops) : Prop where
  val : ∀ ρ e, Good I ρ e → eval I ρ (O.expand e) = eval I ρ e ∧ Good I ρ (O.expand e)
  sym : ∀ s, O.expand (.sym s) = .sym s

theorem mapM_val {f : Expr → Option Expr} {P : Expr → Expr → Prop} {l m : List Expr} (h : l.mapM f = some m)
    (hf : ∀ a ∈ l, ∀ b, f a = some b → P a b) : List.Forall₂ P l m := by
  induction l generalizing m with
  | nil => simp at h; subst h; exact .nil
  | cons a l ih =>
    rw [List.mapM_cons] at h
    obtain ⟨b, hb, h⟩ := Option.bind_eq_some_iff.mp h
    obtain ⟨m', hm', h⟩ := Option.bind_eq_some_iff.mp h
    cases h
    exact .cons (hf a (by simp) b hb) (ih hm' fun a ha => hf a (by simp [ha]))

theorem forall2_map {l m : List Expr} (h : List.Forall₂ (fun a b => eval I ρ b = eval I ρ a ∧ Lw I ρ b) l m) :
    (m.map fun a => eval I ρ a) = l.map fun a => eval I ρ a := by
  induction h with
  | nil => rfl
  | cons h _ ih => simp [h.1, ih]

theorem forall2_lw {l m : List Expr} (h : List.Forall₂ (fun a b => eval I ρ b = eval I ρ a ∧ Lw I ρ b) l m) :
    Lw I ρ (m.foldr (fun a acc => mulE acc a) (.num 1)) := by
  induction h with
  | nil => exact lw_num ρ 1
  | cons h _ ih => exact lw_mulE ih h.2

theorem lw_add_fold {m : List Expr} (h : ∀ b ∈ m, Lw I ρ b) : Lw I ρ (m.foldr (fun a acc => addE acc a) (.num 0)) := by
  induction m with
  | nil => exact lw_num ρ 0
  | cons b m ih =>
    have h1 := ih fun b hb => h b (by simp [hb])
    have h2 := h b (by simp)
    rw [List.foldr_cons]
    generalize m.foldr (fun a acc => addE acc a) (.num 0) = x at h1
    cases x <;> cases b <;> simp only [addE] <;> (try split) <;> simp_all [Lw]

theorem forall2_right {P : Expr → Expr → Prop} {Q : Expr → Prop} {l m : List Expr} (h : List.Forall₂ P l m) (hq : ∀ a b, P a b → Q b) :
    ∀ b ∈ m, Q b := by
  induction h with
  | nil => simp
  | cons h _ ih =>
    intro b hb
    rcases List.mem_cons.mp hb with rfl | hb
    · exact hq _ _ h
    · exact ih b hb

end

/-- `simplify_expanded_ex_for_input` keeps the value (and its result can be processed
again). -/
theorem simplifyIn_val {I : Interp ℝ} (hI : RealPow I) (hB : IntBind I) {O : Ops} (hO : ∀ ρ, OpsOk I ρ O) (hE : ExpandOk I O)
    {n : String} {k : ℕ} {e r : Expr} (h : simplifyIn O n k e = some r) {ρ : String → ℝ} (hn : IsInt (ρ n)) (hg : Good I ρ e) :
    eval I ρ r = eval I ρ e ∧ Lw I ρ r := by
  induction k generalizing e r ρ with
  | zero => simp [simplifyIn] at h
  | succ k ih =>
    rw [simplifyIn] at h
    -- the recursive calls on the operands
    have step : ∀ {a b : Expr} {ρ : String → ℝ}, IsInt (ρ n) → Good I ρ a → simplifyIn O n k (O.expand a) = some b →
        eval I ρ b = eval I ρ a ∧ Lw I ρ b := by
      intro a b ρ hn ha hb
      obtain ⟨h1, h2⟩ := hE.val ρ a ha
      obtain ⟨h3, h4⟩ := ih hb hn h2
      exact ⟨h3.trans h1, h4⟩
    cases e with
    | add l =>
      obtain ⟨m, hm, rfl⟩ := Option.map_eq_some_iff.mp h
      rw [Good] at hg
      have hf := mapM_val (P := fun a b => eval I ρ b = eval I ρ a ∧ Lw I ρ b) hm fun a ha b hb => step hn (hg a ha) hb
      refine ⟨?_, lw_add_fold ρ (forall2_right hf fun a b h => h.2)⟩
      rw [eval_foldr_addE, forall2_map ρ hf, eval]
      simp [eval]
    | mul l =>
      obtain ⟨m, hm, rfl⟩ := Option.map_eq_some_iff.mp h
      rw [Good] at hg
      have hf := mapM_val (P := fun a b => eval I ρ b = eval I ρ a ∧ Lw I ρ b) hm fun a ha b hb => step hn (hg a ha) hb
      have hv : eval I ρ (m.foldr (fun a acc => mulE acc a) (.num 1)) = eval I ρ (.mul l) := by
        rw [eval_foldr_mulE, forall2_map ρ hf, eval]
        simp [eval]
      have hl := forall2_lw ρ hf
      rw [← hv]
      generalize m.foldr (fun a acc => mulE acc a) (.num 1) = p at hl
      cases p with
      | mul q =>
        rw [Lw] at hl
        exact collectSameExponents_val hI ρ (hO ρ) n true hl
      | _ => exact ⟨rfl, hl⟩
    | pow b x =>
      simp only [inputStep, Option.some.injEq] at h
      subst h
      exact simplifyPowers_val hI ρ O hn (by simpa [Good] using hg) true
    | fn f l =>
      obtain ⟨m, hm, rfl⟩ := Option.map_eq_some_iff.mp h
      rw [Good] at hg
      have hf := mapM_val (P := fun a b => eval I ρ b = eval I ρ a ∧ Lw I ρ b) hm fun a ha b hb => step hn (hg a ha) hb
      refine ⟨?_, by simp [Lw]⟩
      rw [eval, eval, forall2_map ρ hf]
    | binder κ i lo up body =>
      rw [Good] at hg
      obtain ⟨⟨s, rfl⟩, h1, h2, h3⟩ := hg
      obtain ⟨i', hi, h⟩ := Option.bind_eq_some_iff.mp h
      obtain ⟨lo', hl, h⟩ := Option.bind_eq_some_iff.mp h
      obtain ⟨up', hu, h⟩ := Option.bind_eq_some_iff.mp h
      obtain ⟨body', hb, rfl⟩ := Option.map_eq_some_iff.mp h
      have hi' : i' = .sym s := by
        rw [hE.sym] at hi
        cases k with
        | zero => simp [simplifyIn] at hi
        | succ k => simp only [simplifyIn, inputStep, Option.some.injEq] at hi; exact hi.symm
      subst hi'
      refine ⟨?_, by simp [Lw]⟩
      rw [eval, eval, (step hn h1 hl).1, (step hn h2 hu).1]
      refine hB _ _ _ _ _ fun z => (step ?_ (h3 z) hb).1
      simp only [bindIdx]
      by_cases hs : n = s
      · subst hs; exact ⟨z, by simp⟩
      · rw [Function.update_of_ne hs]; exact hn
    | num q => simp only [inputStep, Option.some.injEq] at h; subst h; exact ⟨rfl, by simp [Lw]⟩
    | const q => simp only [inputStep, Option.some.injEq] at h; subst h; exact ⟨rfl, by simp [Lw]⟩
    | sym q => simp only [inputStep, Option.some.injEq] at h; subst h; exact ⟨rfl, by simp [Lw]⟩

/-! ## C52 -/

/-- `simplify_powers` keeps the value of a power, if every factor of its innermost base
is positive or all exponents involved are (products of) integers; `n` is an integer. -/
theorem C52_simplify_powers {I : Interp ℝ} (hI : RealPow I) (O : Ops) {n : String} {ρ : String → ℝ} (hn : IsInt (ρ n))
    {e : Expr} (h : PowOk I ρ e) (input : Bool) : eval I ρ (simplifyPowers O n e input) = eval I ρ e :=
  (simplifyPowers_val hI ρ O hn h input).1

/-- `collect_same_exponents` keeps the value of a product in which every power of a
non-positive base has an integer exponent. -/
theorem C52_collect_same_exponents {I : Interp ℝ} (hI : RealPow I) {O : Ops} {ρ : String → ℝ} (hO : OpsOk I ρ O) (n : String)
    (onlyN : Bool) {l : List Expr} (hl : ∀ f ∈ l, Lw I ρ f) :
    eval I ρ (collectSameExponents O n onlyN l) = eval I ρ (.mul l) := (collectSameExponents_val hI ρ hO n onlyN hl).1

/-- `simplify_ex_for_input` keeps the value of every expression whose powers may be
rewritten, whenever `n` is an integer. -/
theorem C52_simplify_input {I : Interp ℝ} (hI : RealPow I) (hB : IntBind I) {O : Ops} (hO : ∀ ρ, OpsOk I ρ O) (hE : ExpandOk I O)
    {n : String} {k : ℕ} {e r : Expr} (h : simplifyForInput O n k e = some r) {ρ : String → ℝ} (hn : IsInt (ρ n))
    (hg : Good I ρ e) : eval I ρ r = eval I ρ e := by
  obtain ⟨h1, h2⟩ := hE.val ρ e hg
  exact (simplifyIn_val hI hB hO hE h hn h2).1.trans h1

/-- Operations satisfying the assumptions. -/
def exOps : Ops where
  expand := id
  nd := id
  perfect := fun _ _ => false
  opposite := fun a b => a = negE b

theorem exOps_ok (I : Interp ℝ) (ρ : String → ℝ) : OpsOk I ρ exOps where
  nd := fun b => ⟨rfl, id⟩
  opposite := fun a b h => by
    simp only [exOps, decide_eq_true_eq] at h
    rw [h, eval_negE]

theorem exOps_expand (I : Interp ℝ) : ExpandOk I exOps := ⟨fun _ _ h => ⟨rfl, h⟩, fun _ => rfl⟩

/-- `(x y²)^n · z^n`. -/
def exProd : Expr := .mul [.pow (.mul [.sym "x", .pow (.sym "y") (.num 2)]) (.sym "n"), .pow (.sym "z") (.sym "n")]

/-- The hypotheses hold for `(x y²)^n z^n` at all real `x, y, z` and integer `n`; the result
is the single power `(z y² x)^n`. -/
theorem C52_nonvacuous (ξ : ℝ → ℝ) (ρ : String → ℝ) (hn : IsInt (ρ "n")) :
    Good (realInterp ξ) ρ exProd ∧
      simplifyForInput exOps "n" 2 exProd =
        some (.pow (.mul [.sym "z", .pow (.sym "y") (.num 2), .sym "x"]) (.sym "n")) := by
  constructor
  · simp only [exProd, Good, List.mem_cons, List.not_mem_nil, or_false, forall_eq_or_imp, forall_eq]
    have hn' : IsInt (eval (realInterp ξ) ρ (.sym "n")) := by simpa [eval] using hn
    have h2 : IsInt (eval (realInterp ξ) ρ (.num 2)) := ⟨2, by simp [eval]⟩
    constructor
    · intro a ha
      simp [root, baseFactors] at ha
      rcases ha with rfl | rfl
      · refine ⟨by simp [root, Lw], Or.inr ⟨?_, ?_⟩⟩
        · intro f hf g hg
          simp [expFactors, factors] at hf
          subst hf
          simp [factors] at hg
          subst hg
          exact hn'
        · intro f hf
          simp [expFactors] at hf
      · refine ⟨by simp [root, Lw], Or.inr ⟨?_, ?_⟩⟩
        · intro f hf g hg
          simp [expFactors, factors] at hf
          subst hf
          simp [factors] at hg
          subst hg
          exact hn'
        · intro f hf g hg
          simp [expFactors, factors] at hf
          subst hf
          simp [factors] at hg
          subst hg
          exact h2
    · intro a ha
      simp [root, baseFactors] at ha
      subst ha
      refine ⟨by simp [root, Lw], Or.inr ⟨?_, ?_⟩⟩
      · intro f hf g hg
        simp [expFactors, factors] at hf
        subst hf
        simp [factors] at hg
        subst hg
        exact hn'
      · intro f hf
        simp [expFactors] at hf
  · simp [simplifyForInput, simplifyIn, inputStep, exProd, exOps, simplifyPowers, realBase, splitExp, factors, isNum, isOpposite,
      powMul, powFactor, returnPower, eraseFactor, mulE, powE, collectIfMul, collectSameExponents, basesExps, asPair, collectExp,
      absorbExp, isRest]

/-! ## C81: equal bases -/

/-- `collect_same_base` keeps the value of a product of positive powers or integer powers
of non-zero bases, if the powers that rule `C1` replaces occur only once. -/
theorem C81_collect_same_base_partial {I : Interp ℝ} (hI : RealPow I) {ρ : String → ℝ} {l : List Expr}
    (hl : ∀ f ∈ l, Combinable I ρ f) (hc : Separate l) : eval I ρ (collectSameBase l) = eval I ρ (.mul l) :=
  collectSameBase_val hI ρ hl hc

/-- `x · x^y · (1 + x^y)^z`. -/
def exTwice : List Expr :=
  [.sym "x", .pow (.sym "x") (.sym "y"), .pow (.add [.num 1, .pow (.sym "x") (.sym "y")]) (.sym "z")]

theorem exTwice_result : collectSameBase exTwice =
    .mul [.pow (.add [.pow (.sym "x") (.add [.sym "y", .num 1]), .num 1]) (.sym "z"),
      .pow (.sym "x") (.add [.sym "y", .num 1])] := by
  simp [collectSameBase, exTwice, basesExps, asPair, collectBase, absorbBase, mulE, powE, baseStep, isRest, matchBase, plusOne,
    substitute, addE]

/-- Multiplying by the base changes every occurrence of the power:
`x · x^y · (1 + x^y)^z` becomes `x^{y+1} (1 + x^{y+1})^z`, which is 20 instead of 12 at
`x = 2`, `y = z = 1`. -/
theorem C81_other_occurrence_refuted (ξ : ℝ → ℝ) : ∃ ρ : String → ℝ,
    (∀ f ∈ exTwice, Combinable (realInterp ξ) ρ f) ∧
      eval (realInterp ξ) ρ (.mul exTwice) = 12 ∧ eval (realInterp ξ) ρ (collectSameBase exTwice) = 20 := by
  refine ⟨fun s => if s = "x" then 2 else 1, ?_, ?_, ?_⟩
  · intro f hf b e h
    simp [exTwice] at hf
    rcases hf with rfl | rfl | rfl
    · cases h
    · cases h
      left; simp [eval]
    · cases h
      left; simp [eval, realInterp]; norm_num
  · simp [exTwice, eval, realInterp]; norm_num
  · rw [exTwice_result]
    simp [eval, realInterp]
    norm_num

/-- `x^2 · x^y · x`. -/
def exOnce : List Expr := [.pow (.sym "x") (.num 2), .pow (.sym "x") (.sym "y"), .sym "x"]

/-- The hypotheses hold for `x² · x^y · x` with positive `x`. -/
theorem C81_nonvacuous (ξ : ℝ → ℝ) (ρ : String → ℝ) (hx : 0 < ρ "x") :
    (∀ f ∈ exOnce, Combinable (realInterp ξ) ρ f) ∧ Separate exOnce ∧
      collectSameBase exOnce = .pow (.sym "x") (.add [.num 2, .sym "y", .num 1]) := by
  refine ⟨?_, ?_, ?_⟩
  · intro f hf b e h
    simp [exOnce] at hf
    rcases hf with rfl | rfl | rfl <;> cases h <;> exact Or.inl (by simpa [eval] using hx)
  · simp [Separate, exOnce, asPair, collectBase, absorbBase, addE, powE, mulE, FoldOk, isRest, matchBase]
  · simp [collectSameBase, exOnce, basesExps, asPair, collectBase, absorbBase, mulE, powE, baseStep, isRest, matchBase, plusOne,
      substitute, addE]

/-! ## C82: all real values -/

/-- `(x²)^{1/2}`. -/
def exSqrt : Expr := .pow (.pow (.sym "x") (.num 2)) (.num (1 / 2))

/-- The square root of a square becomes its base, whatever the sign of the base: the value
changes from 1 to -1 at `x = -1`. -/
theorem C82_root_of_square_refuted (ξ : ℝ → ℝ) (O : Ops) (n : String) (k : ℕ) : ∃ ρ : String → ℝ, IsInt (ρ n) ∧
    eval (realInterp ξ) ρ exSqrt = 1 ∧
      (simplifyIn O n (k + 1) exSqrt).map (eval (realInterp ξ) ρ) = some (-1) := by
  refine ⟨fun _ => -1, ⟨-1, by simp⟩, ?_, ?_⟩
  · simp [exSqrt, eval, realInterp]
  · simp [simplifyIn, inputStep, exSqrt, simplifyPowers, realBase, splitExp, factors, isNum, returnPower, eraseFactor, mulE, powE, eval]

/-- What holds for all real exponents: if the factors of the innermost base are (nested
powers of) positive numbers, the value is kept. -/
theorem C82_positive_partial {I : Interp ℝ} (hI : RealPow I) (O : Ops) {n : String} {ρ : String → ℝ} (hn : IsInt (ρ n))
    {e : Expr} (h : ∀ a ∈ baseFactors (root e), Lw I ρ (root a) ∧ 0 < eval I ρ (root a)) (input : Bool) :
    eval I ρ (simplifyPowers O n e input) = eval I ρ e :=
  C52_simplify_powers hI O hn (fun a ha => ⟨(h a ha).1, Or.inl (h a ha).2⟩) input

/-- The power of an opposite `-a` is not distributed: its value is kept wherever `-a` is
positive, although `a` itself is then negative. -/
theorem C82_opposite_partial {I : Interp ℝ} (hI : RealPow I) (O : Ops) {n : String} {ρ : String → ℝ} (hn : IsInt (ρ n))
    {a x : Expr} (ha : Lw I ρ a) (h : eval I ρ a < 0) (input : Bool) :
    eval I ρ (simplifyPowers O n (.pow (.mul [.num (-1), a]) x) input) = eval I ρ (.pow (.mul [.num (-1), a]) x) ∧
    eval I ρ (simplifyPowers O n (.pow (.mul [a, .num (-1)]) x) input) = eval I ρ (.pow (.mul [a, .num (-1)]) x) := by
  constructor
  · refine C82_positive_partial hI O hn ?_ input
    intro b hb
    simp [root, baseFactors] at hb
    subst hb
    exact ⟨by simp [root, Lw, ha], by simpa [root, eval] using h⟩
  · refine C82_positive_partial hI O hn ?_ input
    intro b hb
    simp [root, baseFactors] at hb
    subst hb
    exact ⟨by simp [root, Lw, ha], by simpa [root, eval] using h⟩

/-- `(-x)^(1/2)` at `x = -4`. -/
example (ξ : ℝ → ℝ) (O : Ops) :
    eval (realInterp ξ) (fun _ => -4) (simplifyPowers O "n" (.pow (.mul [.num (-1), .sym "x"]) (.num (1 / 2))) true) = 2 := by
  rw [(C82_opposite_partial (realPow_real ξ) O (n := "n") (ρ := fun _ => -4) ⟨-4, by norm_num⟩ (by simp [Lw])
    (by norm_num [eval]) true).1]
  simp only [eval, realInterp, List.map_cons, List.map_nil, List.prod_cons, List.prod_nil]
  norm_num

end Purrs.SimplifyPow
