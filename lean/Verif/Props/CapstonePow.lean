import Verif.Props.CapstoneDiv
import Verif.Props.NonLinearBounds

/-!
# `x(n) = x(n/b)^a`: from the right-hand side written by the user, through any calls, to the bounds (C158)

The classification as non-linear recurrence, the associated functional equation and its classification (C37), the bounds (C123) and the state of
the object, as long as no initial conditions are in force.
-/

set_option linter.unusedSectionVars false

namespace Purrs.CapstonePow

open Function (update update_of_ne update_self)
open OrderRed (withX eval_noX eval_x)
open Classify (St classify)
open Bounds (Ty Cmp Sums val approximate initialTerm ev_pow ev_num)
open NonLinear (Want powerBound rewritePow PowerEq)
open CapstoneDiv (IsDivision Solves)
open CapstoneBounds (Sense Closed)
open RecState

/-- `n / b`, as it is written by GiNaC. -/
def quot (n : String) (b : ℕ) : Expr := .mul [.num (1 / b), .sym n]

/-- `x(n/b)^a`. -/
def rhs (n : String) (a : ℚ) (b : ℕ) : Expr := .pow (.fn .x [quot n b]) (.num a)

variable {n : String} {ms : ℕ} {a : ℚ} {b : ℕ}

theorem inv_den (hb : 2 ≤ b) : (1 / (b : ℚ)).den ≠ 1 := by
  intro h
  have h1 : (((1 / (b : ℚ)).num : ℤ) : ℚ) = 1 / b := Rat.coe_int_num_of_den_eq_one h
  have hbR : (2 : ℚ) ≤ b := by exact_mod_cast hb
  have h2 : (0 : ℚ) < 1 / b := by positivity
  have h3 : 1 / (b : ℚ) < 1 := by rw [div_lt_one (by linarith)]; linarith
  rw [← h1] at h2 h3
  have h4 : 0 < (1 / (b : ℚ)).num := by exact_mod_cast h2
  have h5 : (1 / (b : ℚ)).num < 1 := by exact_mod_cast h3
  omega

/-- The right-hand side is classified as non-linear. -/
theorem classify_rhs (n : String) (ms : ℕ) (a : ℚ) (b : ℕ) : classify n ms (rhs n a b) = .nonLinear := by
  have h : hasXOf (.sym n) (.fn .x [quot n b]) = true := by simp [hasXOf, quot, has]
  have hne : (.fn .x [quot n b] : Expr) ≠ Classify.xn n := by simp [Classify.xn, quot]
  simp [Classify.classify, rhs, addends, Classify.loopFrom, Classify.summand, Classify.findNonLinear, Classify.kindOf, h, hne]

/-- What the classification of the associated equation `x(n) = a x(n/b)` finds. -/
def assoc (a : ℚ) (b : ℕ) : St := ⟨.functional, .num 0, 0, [], 0, [(1 / (1 / (b : ℚ)), .num a)]⟩

theorem assoc_rhs (ha : 0 < a) (ha1 : a ≠ 1) (arg : Expr) : (rewritePow a arg).rhs = .mul [.num a, .fn .x [arg]] := by
  simp [rewritePow, mulE, ha.ne', ha1]

theorem classify_assoc (ha : 0 < a) (ha1 : a ≠ 1) (hb : 2 ≤ b) : classify n ms (rewritePow a (quot n b)).rhs = .ok (assoc a b) := by
  have hp : hasParameters n (quot n b) = false := by simp [hasParameters, quot]
  have hh : has (.sym n) (quot n b) = true := by simp [has, quot]
  have hx : hasXOf (.sym n) (quot n b) = false := by simp [hasXOf, quot]
  have hn : quot n b ≠ .sym n := by simp [quot]
  have ha2 : Classify.isAdd2 (quot n b) = false := rfl
  have hm2 : Classify.isMul2 (quot n b) = true := rfl
  have hd : Classify.getDivisor n (quot n b) = some (1 / (1 / (b : ℚ))) := Classify.getDivisor_mk n (1 / b) (inv_den hb) (by positivity)
  rw [assoc_rhs ha ha1]
  have h1 : Classify.summand n ms 0 (.mul [.num a, .fn .x [quot n b]]) Classify.initSt = .ok (assoc a b) := by
    simp only [Classify.summand, Classify.findNonLinear, Classify.kindOf, List.any_cons, List.any_nil, hx, Bool.or_false, Bool.false_eq_true,
      if_false, Classify.nlStep, List.foldr_cons, List.foldr_nil, Classify.isXn, hh, if_true, reduceCtorEq, Classify.product, Classify.factorStep,
      Classify.factorX, hn, hp, Bool.not_true, ha2, hm2, hd, Classify.isWeightedSum]
    simp [St.fresh, St.linear, Classify.mapInsert, Classify.finishProduct, Classify.initSt, has, mulE, assoc]
  simp only [Classify.classify, addends, Classify.loopFrom, h1]

theorem assoc_division (ha : 0 < a) (ha1 : a ≠ 1) (hb : 2 ≤ b) : IsDivision n ms (rewritePow a (quot n b)).rhs (assoc a b) a b where
  ok := classify_assoc ha ha1 hb
  ty := rfl
  homog := by simp [assoc]
  nodup := by
    have h : Classify.divisors n (rewritePow a (quot n b)).rhs = [(1 / (1 / (b : ℚ)))] := by
      have hd : Classify.getDivisor n (quot n b) = some (1 / (1 / (b : ℚ))) := Classify.getDivisor_mk n (1 / b) (inv_den hb) (by positivity)
      rw [assoc_rhs ha ha1]
      have h2 : Classify.xDiv n (.num a) = none := by simp [Classify.xDiv]
      have h3 : Classify.xDiv n (.fn .x [quot n b]) = some (1 / (1 / (b : ℚ))) := by simp [Classify.xDiv, hd]
      simp only [Classify.divisors, addends, factors, List.flatMap_cons, List.flatMap_nil, List.filterMap_cons, List.filterMap_nil, h2, h3]
      rfl
    rw [h]
    simp
  pos := ha
  two := hb
  plain := by simp [assoc, hasParameters]

/-- The sequences that satisfy what the user wrote. -/
theorem solves_iff (ρ : String → ℝ) (hb : 2 ≤ b) (ξ : ℝ → ℝ) : Solves n ρ (rhs n a b) b ξ ↔ PowerEq ξ a b := by
  refine forall_congr' fun N => forall_congr' fun hN => ?_
  have h : eval (withX (realInterp 0) fun q => ξ ⌊q⌋₊) (update ρ n (N : ℝ)) (rhs n a b) = ξ ((N / b : ℕ) : ℝ) ^ (a : ℝ) := by
    rw [NonLinear.withX_real, rhs]
    have h1 : ⌊(1 / (b : ℝ)) * N⌋₊ = N / b := by rw [one_div, inv_mul_eq_div, Nat.floor_div_eq_div]
    have h2 : eval (realInterp fun q => ξ ⌊q⌋₊) (update ρ n (N : ℝ)) (.fn .x [quot n b]) = ξ ((N / b : ℕ) : ℝ) := by
      rw [← h1]
      simp [eval, realInterp, realFn, quot]
    have h3 : ∀ (I : Interp ℝ) σ x y, eval I σ (.pow x y) = I.pw (eval I σ x) (eval I σ y) := fun I σ x y => by rw [eval]
    rw [h3, h2, show eval (realInterp fun q => ξ ⌊q⌋₊) (update ρ n (N : ℝ)) (.num a) = (a : ℝ) by rw [eval]]
    rfl
  rw [h]

/-- The bound that a query asks for. -/
def kind : Which → Want
  | .lower => .lower
  | .upper => .upper
  | .exact => .exact

/-- The parts behind the object are those of the library: the associated equation is `x(n) = a x(n/b)` without inhomogeneous term, `c` is its
applicability condition; renaming keeps values. -/
structure Wired (E : Engine) (n : String) (ms : ℕ) (ρ : String → ℝ) (cmp : Expr → Expr → Cmp) (S : Sums) (simp : Expr → Expr) (a : ℚ) (b c : ℕ) :
    Prop where
  classify : classify n ms (rhs n a b) = .nonLinear → (E.classify (rhs n a b)).1 = .success ∧ (E.classify (rhs n a b)).2.1.ty = .nonLinear
  solve : ∀ i x, E.solve (E.classify (rhs n a b)).2.2 (E.classify (rhs n a b)).2.1 i = .ok x → powerBound n cmp S simp a b c .exact = some x
  lower : ∀ x, E.bound (E.classify (rhs n a b)).2.2 (E.classify (rhs n a b)).2.1 .lower = .ok x → powerBound n cmp S simp a b c .lower = some x
  upper : ∀ x, E.bound (E.classify (rhs n a b)).2.2 (E.classify (rhs n a b)).2.1 .upper = .ok x → powerBound n cmp S simp a b c .upper = some x
  simp : ∀ ξ e (N : ℕ), val ξ ρ n (simp e) N = val ξ ρ n e N
  rename : ∀ ξ e (N : ℕ), val ξ ρ n (E.rename e) N = val ξ ρ n e N

variable {E : Engine} {ρ : String → ℝ} {cmp : Expr → Expr → Cmp} {S : Sums} {simp : Expr → Expr} {c : ℕ}

/-- The value of the bound. -/
def Has (n : String) (ρ : String → ℝ) (a : ℚ) (b c : ℕ) (w : Want) (x : Expr) : Prop :=
  ∀ ξ (N : ℕ), val ξ ρ n x N = Real.exp (val (fun v => Real.log (ξ v)) ρ n (initialTerm n w.ty c a b) N)

theorem has_bound (hW : Wired E n ms ρ cmp S simp a b c) (ha : 0 < a) (ha1 : a ≠ 1) (hb : 2 ≤ b) {w : Want} (hw : w ≠ .exact) {x : Expr}
    (h : powerBound n cmp S simp a b c w = some x) : Has n ρ a b c w x := by
  rw [NonLinear.powerBound_some n cmp S simp c ha hb w hw, Option.some.injEq] at h
  subst h
  intro ξ N
  rw [hW.simp, NonLinear.power_val ξ ρ n _ c ha ha1]

theorem has_apart (ha : 0 < a) (ha1 : a ≠ 1) {x : Expr} (h1 : Has n ρ a b c .lower x) (h2 : Has n ρ a b c .upper x) : False := by
  have h := (h1 (fun _ => Real.exp 1) 1).symm.trans (h2 (fun _ => Real.exp 1) 1)
  simp only [Real.log_exp, Want.ty] at h
  exact NonLinear.initialTerm_apart n ρ c ha ha1 (Real.exp_injective h)

/-- The classes of expressions: lower bounds, upper bounds, and nothing as exact solution. -/
def Ans (n : String) (ρ : String → ℝ) (a : ℚ) (b c : ℕ) : CapstoneBounds.Cl
  | .exact, _ => False
  | .lower, x => Has n ρ a b c .lower x
  | .upper, x => Has n ρ a b c .upper x

theorem closed (hW : Wired E n ms ρ cmp S simp a b c) (ha : 0 < a) (ha1 : a ≠ 1) (hb : 2 ≤ b) :
    Closed E (rhs n a b) (Ans n ρ a b c) fun _ _ _ => True := by
  obtain ⟨k1, k2⟩ := hW.classify (classify_rhs n ms a b)
  refine ⟨by rw [k1]; simp, by rw [k2]; simp, ?_, ?_, ?_, ?_, ?_, ?_, fun _ _ _ _ _ => trivial, fun _ _ _ _ _ => trivial, fun _ _ _ => ⟨trivial, trivial⟩⟩
  · intro i x _ h
    have := hW.solve i x h
    rw [NonLinear.C122_exact_partial n cmp S simp c ha ha1 hb] at this
    cases this
  · intro x h
    exact has_bound hW ha ha1 hb (w := .lower) (by simp) (hW.lower x h)
  · intro x h
    exact has_bound hW ha ha1 hb (w := .upper) (by simp) (hW.upper x h)
  · intro k x h
    cases k with
    | exact => exact h
    | lower => exact fun ξ N => (hW.rename ξ x N).trans (h ξ N)
    | upper => exact fun ξ N => (hW.rename ξ x N).trans (h ξ N)
  · intro x
    exact ⟨fun h => h.elim, fun h => has_apart ha ha1 h.1 h.2⟩
  · intro h
    rw [k2] at h
    cases h

/-- **C158.**  The user writes `x(n) = x(n/b)^a` with a positive number `a ≠ 1` and an integer `b ≥ 2`.  Whatever calls were made before, if no
initial conditions are in force, an answer of `lower_bound()` (`upper_bound()`) bounds, at every `n ≥ 1`, every function that satisfies the
equation that the user wrote and whose initial values are at least `1`.  There is no answer of `exact_solution()`. -/
theorem C158_answer_is_bound (hW : Wired E n ms ρ cmp S simp a b c) (ha : 0 < a) (ha1 : a ≠ 1) (hb : 2 ≤ b) (hc : c ≤ 1)
    {s : RecState} (h : RecReach E (rhs n a b) s) (hi : s.ics = []) {w : Which} {v : Expr} (hv : (query E w s).2 = some v) :
    w ≠ .exact ∧ ∀ ξ : ℝ → ℝ, Solves n ρ (rhs n a b) b ξ → (∀ i : ℕ, 1 ≤ i → i < b → 1 ≤ ξ i) → ∀ N : ℕ, 1 ≤ N → Sense w (val ξ ρ n v N) (ξ N) := by
  have hP := (CapstoneBounds.answers (closed hW ha ha1 hb) h hv).1 hi
  refine ⟨by rintro rfl; exact hP, fun ξ hξ hpos N hN => ?_⟩
  obtain ⟨l, u, hl, hu, h2⟩ := NonLinear.C123_power_bounds (n := n) (cmp := cmp) (S := S) (ρ := ρ) ha ha1 hb hc ((solves_iff ρ hb ξ).mp hξ) hpos (hW.simp ξ)
  have hl' := has_bound hW ha ha1 hb (w := .lower) (by simp) hl
  have hu' := has_bound hW ha ha1 hb (w := .upper) (by simp) hu
  cases w with
  | exact => exact hP.elim
  | lower =>
    show val ξ ρ n v N ≤ ξ N
    rw [hP ξ N, ← hl' ξ N]
    exact (h2 N hN).1
  | upper =>
    show ξ N ≤ val ξ ρ n v N
    rw [hP ξ N, ← hu' ξ N]
    exact (h2 N hN).2

/-- The right-hand side is recognised: it is non-linear, and the associated equation is `x(n) = a x(n/b)`, without inhomogeneous term. -/
theorem C158_recognised (ha : 0 < a) (ha1 : a ≠ 1) (hb : 2 ≤ b) : classify n ms (rhs n a b) = .nonLinear ∧
    ∃ st, classify n ms (rewritePow a (quot n b)).rhs = .ok st ∧ st.ty = .functional ∧ st.homog = [((b : ℚ), .num a)] ∧ st.inhom = .num 0 :=
  ⟨classify_rhs n ms a b, assoc a b, classify_assoc ha ha1 hb, rfl, (assoc_division (n := n) (ms := ms) ha ha1 hb).homog, rfl⟩

end Purrs.CapstonePow
