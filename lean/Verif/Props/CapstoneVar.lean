import Verif.Props.CapstoneLinear
import Verif.Props.FirstIndex
import Verif.Props.NonLinearBounds

/-!
# Variable coefficients: from the right-hand side written by the user, through any calls, to the answer (C151)

The classification with its first valid index (C36, C150), the solver for the order 1 (C145), the state of the object (C136, C137) and the
treatment of the initial conditions (C114).  Values are real numbers.
-/

set_option linter.unusedSectionVars false

namespace Purrs.CapstoneVar

open Function (update update_of_ne update_self)
open OrderRed (withX eval_noX SolvesAt IsSolution idxNe)
open Classify (St classify)
open OnIC (LinearAt Shape Fresh LsolveOk)
open SolveLin (Agrees Denotes Unknown OpsOk KeepsX VarOk ICs solveLinear)
open Capstone (SoundLinear GoodICs Fits LastKeys)
open FirstIndex (firstIndex Searched relevant)
open Functional (Env)
open Bounds (val)
open RecState

/-- The coefficient of `x(n-1)`. -/
def coeff (st : St) : Expr := st.coeffs.getD 1 (.num 0)

/-- The right-hand side is classified as linear of order 1 with a coefficient that depends on `n`, with the first valid index `f`; the search of
the zeros succeeds on the denominator of the inhomogeneous term and on numerator and denominator of the coefficient. -/
structure IsVariable (V : Env) (den : Expr → Expr) (n : String) (ρ : String → ℝ) (ms fuel : ℕ) (e : Expr) (st : St) (f : ℕ) : Prop where
  ok : classify n ms e = .ok st
  ty : st.ty = .linVar
  order : st.order = 1
  nonzero : (0 : ℚ) ∉ Classify.decrements n e
  first : firstIndex V den n (fuel + 1) st = some f
  searched : ∀ e ∈ relevant den st, Searched 0 ρ n V e
  quotient : ∀ N : ℕ, val 0 ρ n (V.den (coeff st)) N ≠ 0 → val 0 ρ n (coeff st) N = val 0 ρ n (V.num (coeff st)) N / val 0 ρ n (V.den (coeff st)) N

/-- What the solver returns, possibly with the new symbols renamed. -/
inductive Returned (E : Engine) (OL : SolveLin.Ops) (n : String) (e : Expr) (st : St) (f : ℕ) : Expr → Prop
  | solve {x : Expr} : solveLinear OL n e st.inhom f 1 false (coeff st) none none = some x → Returned E OL n e st f x
  | rename {x : Expr} : Returned E OL n e st f x → Returned E OL n e st f (E.rename x)

/-- The parts behind the object are those of the library. -/
structure Wired (E : Engine) (OL : SolveLin.Ops) (O : OnIC.Ops) (n : String) (e : Expr) (st : St) (f : ℕ) : Prop where
  classify : E.classify e = (.success, ⟨.linVar, 1, f, 0⟩, e)
  solve : ∀ b, E.solve e ⟨.linVar, 1, f, 0⟩ b =
    match solveLinear OL n e st.inhom f 1 false (coeff st) none none with
    | some x => .ok x
    | none => .error .tooComplex
  onIC : ∃ d weight inhom z sol1, ∀ m x, E.onIC e ⟨.linVar, 1, f, 0⟩ m x =
    (OnIC.evaluate O n ⟨.linVar, 1, f, 0⟩ d weight inhom z sol1 m x).getD (.num 0)

/-- What is assumed of the operations that have no model here: GiNaC, the simplifications, and that the product of the coefficient and the sum of
order 1 are computed right (C53, C48). -/
structure Assumed (E : Engine) (OL : SolveLin.Ops) (O : OnIC.Ops) (n : String) (B : String → Prop) (ρ : String → ℝ) (e : Expr)
    (st : St) (f : ℕ) (p : ℕ → ℝ) : Prop where
  ops : OpsOk (realInterp 0) OL n B ρ f 1
  var : VarOk (realInterp 0) OL n B ρ f (coeff st) st.inhom (fun N => val 0 ρ n (coeff st) N) p
  inhom : Denotes (realInterp 0) n (Unknown OL) ρ f st.inhom p
  rename : KeepsX (realInterp 0) n ρ f B (ICs f 1) E.rename
  fresh : ∀ x, Returned E OL n e st f x → Fresh (realInterp 0) O n B x
  renameIC : ∀ m x, Returned E OL n e st f x → ∀ (N : ℕ) Y,
    eval (withX (realInterp 0) Y) (update ρ n N) (E.rename (E.onIC e ⟨.linVar, 1, f, 0⟩ m x)) =
      eval (withX (realInterp 0) Y) (update ρ n N) (E.onIC e ⟨.linVar, 1, f, 0⟩ m x)
  lsolve : LsolveOk (realInterp 0) O n B
  simp : ∀ x m r, Returned E OL n e st f x → OnIC.linear { O with simp := id } n f 1 m x = some r →
    ∀ (N : ℕ) Y, eval (withX (realInterp 0) Y) (update ρ n N) (O.simp r) = eval (withX (realInterp 0) Y) (update ρ n N) r

variable {V : Env} {den : Expr → Expr} {E : Engine} {OL : SolveLin.Ops} {O : OnIC.Ops} {n : String} {B : String → Prop} {ρ : String → ℝ} {e : Expr}
  {ms fuel : ℕ} {st : St} {f : ℕ} {p : ℕ → ℝ}

/-- An expression without parameters contains no `x`. -/
theorem noX_of_noParameters {n : String} {e : Expr} (h : hasParameters n e = false) : hasX e = false := by
  induction e using Expr.ind with
  | num q => simp [hasX]
  | const q => simp [hasX]
  | sym s => simp [hasX]
  | add l ih => simp [hasParameters] at h; simp [hasX]; exact fun a ha => ih a ha (h a ha)
  | mul l ih => simp [hasParameters] at h; simp [hasX]; exact fun a ha => ih a ha (h a ha)
  | pow b e hb he => simp [hasParameters] at h; simp [hasX, hb h.1, he h.2]
  | fn f l ih =>
    by_cases hf : f = .x
    · simp [hasParameters, hf] at h
    · simp [hasParameters, hf] at h
      simp [hasX, hf]
      exact fun a ha => ih a ha (h a ha)
  | binder k i a b c hi ha hb hc => simp [hasParameters] at h; simp [hasX, hi h.1.1.1, ha h.1.1.2, hb h.1.2, hc h.2]

theorem coeff_relevant (hL : IsVariable V den n ρ ms fuel e st f) : coeff st ∈ relevant den st := by
  have h : st.ty = .linVar ∧ st.order = 1 := ⟨hL.ty, hL.order⟩
  rw [relevant, if_pos h]
  simp [coeff]

/-- The coefficient is not 0 where the recurrence is used. -/
theorem coeff_ne (hL : IsVariable V den n ρ ms fuel e st f) : ∀ N : ℕ, f + 1 ≤ N → val 0 ρ n (coeff st) N ≠ 0 := by
  intro N hN
  have h := (FirstIndex.C150_linear_partial (fuel := fuel) (Or.inr hL.ty) (by rw [hL.order]; omega) hL.searched).2 f hL.first
  obtain ⟨h1, h2⟩ := h.2 _ (coeff_relevant hL) N (by rw [hL.order]; exact hN)
  rw [hL.quotient N h2]
  exact div_ne_zero h1 h2

/-- The right-hand side. -/
theorem lin (hL : IsVariable V den n ρ ms fuel e st f) (hp : Denotes (realInterp 0) n (Unknown OL) ρ f st.inhom p) (X : ℝ → ℝ) {N : ℕ} (hN : f + 1 ≤ N) :
    eval (withX (realInterp 0) X) (update ρ n (N : ℝ)) e = val 0 ρ n (coeff st) N * X ((N - 1 : ℕ) : ℝ) + p N := by
  obtain ⟨-, -, hval⟩ := CapstoneExact.linear_value (I := realInterp 0) hL.ok (Or.inr hL.ty) hL.nonzero
  have hpar := (FirstIndex.C150_linear_partial (fuel := fuel) (E := V) (den := den) (n := n) (Or.inr hL.ty) (by rw [hL.order]; omega) hL.searched).1.mp
    (by rw [hL.first]; rfl) _ (coeff_relevant hL)
  rw [hval, hp X _ N (by omega) (SolveLin.agrees_self n _ ρ N), hL.order, Finset.sum_range_one]
  have e1 : eval (withX (realInterp 0) X) (update ρ n (N : ℝ)) (coeff st) = val 0 ρ n (coeff st) N := by
    rw [eval_noX (realInterp 0) X 0 _ (noX_of_noParameters hpar), NonLinear.withX_real]
    rfl
  rw [show st.coeffs.getD (0 + 1) (.num 0) = coeff st from rfl, e1, Nat.cast_sub (by omega)]
  simp

theorem returned (hL : IsVariable V den n ρ ms fuel e st f) (hA : Assumed E OL O n B ρ e st f p) {x : Expr}
    (h : Returned E OL n e st f x) : Shape B (ICs f 1) x ∧ IsSolution (realInterp 0) n e ρ x f 1 := by
  induction h with
  | solve h =>
    exact SolveLin.C145_variable_coefficient hA.ops hA.var (fun m hm => coeff_ne hL m hm) hA.inhom (fun X N hN => lin hL hA.inhom X hN) h
  | rename h ih =>
    refine ⟨hA.rename.shape _ ih.1, fun X hX N hN => ?_⟩
    rw [hA.rename.val _ ih.1 X N hN, ih.2 X hX N hN]

/-- Everything that C136 and C137 assume holds. -/
theorem sound (hL : IsVariable V den n ρ ms fuel e st f) (hW : Wired E OL O n e st f) (hA : Assumed E OL O n B ρ e st f p) :
    SoundLinear (realInterp 0) E O n B ρ e (fun _ N => val 0 ρ n (coeff st) N) p (Returned E OL n e st f) := by
  have hc := hW.classify
  constructor
  · rw [hc]; simp
  · rw [hc]; exact Or.inr rfl
  · rw [hc]
  · exact hA.ops.nB
  · rw [hc]
    refine ⟨fun X N hN => ?_, fun N hN => coeff_ne hL N hN⟩
    rw [lin hL hA.inhom X hN, Finset.sum_range_one]
    rfl
  · intro b x h
    rw [hc] at h
    simp only at h
    rw [hW.solve] at h
    cases hs : solveLinear OL n e st.inhom f 1 false (coeff st) none none with
    | none => rw [hs] at h; cases h
    | some y =>
      rw [hs] at h
      simp only [Except.ok.injEq] at h
      exact .solve (h ▸ hs)
  · exact fun x h => .rename h
  · intro x h
    rw [hc]
    exact (returned hL hA h).1
  · exact hA.fresh
  · intro x h
    rw [hc]
    exact (returned hL hA h).2
  · rw [hc]; exact hW.onIC
  · rw [hc]; exact hA.renameIC
  · exact hA.lsolve
  · rw [hc]
    exact fun x m r h1 h2 => hA.simp x m r h1 h2

/-- **C151.**  The user writes `x(n) = e`; it is classified as linear of order 1 with a coefficient that depends on `n`, with first valid index `f`.  An
answer of `exact_solution()`, `lower_bound()` or `upper_bound()`, after any calls, is the solution of the recurrence that the user wrote: without
initial conditions an expression equal from `f` on to every sequence satisfying it; with initial conditions, the last of which is at `j`, an
expression without symbolic initial conditions equal from `j` on to the sequence (there is one) with the given value that satisfies it. -/
theorem C151_answer_is_solution (hL : IsVariable V den n ρ ms fuel e st f) (hW : Wired E OL O n e st f) (hA : Assumed E OL O n B ρ e st f p)
    {s : RecState} (h : RecReach E e s) {w : Which} {v : Expr} (hv : (query E w s).2 = some v) :
    (s.ics = [] → IsSolution (realInterp 0) n e ρ v f 1) ∧
    (s.ics ≠ [] → GoodICs (realInterp 0) E O n B e (Returned E OL n e st f) s.ics →
      ∃ j, f ≤ j ∧ LastKeys s.ics 1 j ∧ (∃ X, Fits (realInterp 0) n e ρ s.ics 1 j X) ∧
        ∀ X, Fits (realInterp 0) n e ρ s.ics 1 j X → ∀ N : ℕ, j ≤ N → ∀ Y, eval (withX (realInterp 0) Y) (update ρ n N) v = X N) := by
  have := Capstone.C136_answer_is_solution (sound hL hW hA) h hv
  rw [hW.classify] at this
  exact this

/-- **C151**, the values: with initial conditions in force the value returned by `evaluate_exact_solution(N)` (or by the evaluation of a bound) is the
value of the sequence that takes the given value and satisfies the recurrence that the user wrote. -/
theorem C151_evaluation_is_value {B : String → Prop} (hL : IsVariable V den "n" ρ ms fuel e st f) (hW : Wired E OL O "n" e st f)
    (hA : Assumed E OL O "n" B ρ e st f p) {s : RecState} (h : RecReach E e s) (hi : s.ics ≠ [])
    (hm : GoodICs (realInterp 0) E O "n" B e (Returned E OL "n" e st f) s.ics) {w : Which} {v : Expr} (hv : (query E w s).2 = some v)
    (hb : idxNe "n" v = true) {j : ℕ} (hj : LastKeys s.ics 1 j) {X : ℝ → ℝ} (hX : Fits (realInterp 0) "n" e ρ s.ics 1 j X) {N : ℕ}
    (hN : j ≤ N) : ∃ u, (evaluate (query E w) s N).2 = .value u ∧ ∀ Y, eval (withX (realInterp 0) Y) ρ u = X N := by
  have := Capstone.C137_evaluation_is_value (sound hL hW hA) h hi hm hv hb (j := j) (X := X)
  rw [hW.classify] at this
  exact this hj hX hN

end Purrs.CapstoneVar
