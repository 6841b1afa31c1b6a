import Verif.Props.Capstone
import Verif.Props.CapstoneExact
import Verif.Props.SolveLinear

/-!
# From the right-hand side written by the user, through any calls, to the answer (C148)

The classification (C36), the solver of linear recurrences with constant coefficients at the level of expressions (C145), the state of the
object (C136, C137) and the treatment of the initial conditions (C114) put together: that the answers of the solver are solutions is no
longer assumed.
-/

set_option linter.unusedSectionVars false

namespace Purrs.CapstoneLinear

open Function (update)
open OrderRed (withX eval_noX SolvesAt IsSolution idxNe)
open Classify (St classify)
open OnIC (LinearAt Shape Fresh LsolveOk)
open SolveLin (Agrees Denotes Unknown OpsOk KeepsX RecIs TermIs TermSolved RootsAre ICs solveLinear decomposition multOf)
open Capstone (SoundLinear GoodICs Fits LastKeys)
open Polynomial Purrs.Exact RecState

section
variable {K : Type} [Field K] [CharZero K] {I : Interp K}

/-- The right-hand side is classified as linear with the constant coefficients `co 1, …, co k` (rational numbers), the last one not
zero, and with decrements whose greatest common divisor is 1. -/
structure IsLinear (n : String) (ms : ℕ) (e : Expr) (st : St) (co : List ℚ) : Prop where
  ok : classify n ms e = .ok st
  ty : st.ty = .linConst
  coeffs : st.coeffs = co.map Expr.num
  last : co.getD st.order 0 ≠ 0
  nonzero : (0 : ℚ) ∉ Classify.decrements n e
  gcd : st.gcdDec = 1

/-- What the solver returns, possibly with the new symbols renamed. -/
inductive Returned (E : Engine) (OL : SolveLin.Ops) (n : String) (e : Expr) (st : St) (f : ℕ) (roots : List (Expr × ℕ)) (old : Option Expr) :
    Expr → Prop
  | solve {x : Expr} : solveLinear OL n e st.inhom f st.order true (st.coeffs.getD 1 (.num 0)) (some roots) old = some x →
      Returned E OL n e st f roots old x
  | rename {x : Expr} : Returned E OL n e st f roots old x → Returned E OL n e st f roots old (E.rename x)

/-- The parts behind the object are those of the library: classification, solver, treatment of the initial conditions. -/
structure Wired (E : Engine) (OL : SolveLin.Ops) (O : OnIC.Ops) (n : String) (e : Expr) (st : St) (f : ℕ) (roots : List (Expr × ℕ))
    (old : Option Expr) : Prop where
  classify : E.classify e = (.success, ⟨.linConst, st.order, f, 0⟩, e)
  solve : ∀ b, E.solve e ⟨.linConst, st.order, f, 0⟩ b =
    match solveLinear OL n e st.inhom f st.order true (st.coeffs.getD 1 (.num 0)) (some roots) old with
    | some x => .ok x
    | none => .error .tooComplex
  onIC : ∃ d weight inhom z sol1, ∀ m x, E.onIC e ⟨.linConst, st.order, f, 0⟩ m x =
    (OnIC.evaluate O n ⟨.linConst, st.order, f, 0⟩ d weight inhom z sol1 m x).getD (.num 0)

/-- What is assumed of the operations that have no model here (GiNaC, the simplifications, the search of the roots), for the inhomogeneous
term with the values `p` and the terms `b t ^ n * P t` of its decomposition. -/
structure Assumed (I : Interp K) (E : Engine) (OL : SolveLin.Ops) (O : OnIC.Ops) (n : String) (B : String → Prop) (ρ : String → K) (e : Expr)
    (st : St) (co : List ℚ) (f : ℕ) (roots : List (Expr × ℕ)) (old : Option Expr) (p : ℕ → K) (rv : Expr → K) (b : Expr × Expr × Expr → K)
    (P : Expr × Expr × Expr → K[X]) : Prop where
  ops : OpsOk I OL n B ρ f st.order
  inhom : Denotes I n (Unknown OL) ρ f st.inhom p
  shape : Shape B (fun _ => False) st.inhom
  auto : ∀ (X : K → K) (σ : String → K) (N : ℕ), f + st.order ≤ N → Agrees n (Unknown OL) ρ σ N →
    eval (withX I X) σ (OL.auto (subE e st.inhom)) = eval (withX I X) σ (subE e st.inhom)
  out : Verify.xOut n (List.range' 1 st.order) (OL.auto (subE e st.inhom)) = true
  rootsOk : RootsAre I OL n B ρ f st.order (fun i => ((co.getD i 0 : ℚ) : K)) roots rv
  terms : ∀ t ∈ decomposition OL n st.inhom, TermIs I OL n B ρ f t (b t) (P t)
  bases : ∀ t ∈ decomposition OL n st.inhom, ∀ r ∈ roots, OL.rw r.1 = t.1 ↔ rv r.1 = b t
  solved : ∀ t ∈ decomposition OL n st.inhom,
    TermSolved I OL n B ρ f st.order (OL.auto (subE e st.inhom)) (multOf OL roots t.1) t (P t)
  noRest : ∀ t ∈ decomposition OL n st.inhom, t.2.2 = .num 0
  rename : KeepsX I n ρ f B (ICs f st.order) E.rename
  fresh : ∀ x, Returned E OL n e st f roots old x → Fresh I O n B x
  renameIC : ∀ m x, Returned E OL n e st f roots old x → ∀ (N : ℕ) Y,
    eval (withX I Y) (update ρ n N) (E.rename (E.onIC e ⟨.linConst, st.order, f, 0⟩ m x)) =
      eval (withX I Y) (update ρ n N) (E.onIC e ⟨.linConst, st.order, f, 0⟩ m x)
  lsolve : LsolveOk I O n B
  simp : ∀ x m r, Returned E OL n e st f roots old x → OnIC.linear { O with simp := id } n f st.order m x = some r →
    ∀ (N : ℕ) Y, eval (withX I Y) (update ρ n N) (O.simp r) = eval (withX I Y) (update ρ n N) r

variable {E : Engine} {OL : SolveLin.Ops} {O : OnIC.Ops} {n : String} {B : String → Prop} {ρ : String → K} {e : Expr} {ms : ℕ} {st : St}
  {co : List ℚ} {f : ℕ} {roots : List (Expr × ℕ)} {old : Option Expr} {p : ℕ → K} {rv : Expr → K} {b : Expr × Expr × Expr → K}
  {P : Expr × Expr × Expr → K[X]}

theorem coeff_val (h : st.coeffs = co.map Expr.num) (J : Interp K) (σ : String → K) (i : ℕ) :
    eval J σ (st.coeffs.getD i (.num 0)) = ((co.getD i 0 : ℚ) : K) := by
  rw [h, show (Expr.num 0) = Expr.num ((0 : ℚ)) from rfl, List.getD_map]
  simp [eval]

/-- The classified right-hand side is of the form that the solver works on. -/
theorem recIs (hL : IsLinear n ms e st co) (hA : Assumed I E OL O n B ρ e st co f roots old p rv b P) :
    RecIs I OL n B ρ f st.order e st.inhom (fun i => ((co.getD i 0 : ℚ) : K)) p where
  lin := by
    intro X σ N hN hσ
    obtain ⟨-, -, hval⟩ := CapstoneExact.linear_value (I := I) hL.ok (Or.inl hL.ty) hL.nonzero
    have e1 := hval X σ (N : K)
    have e2 : update σ n (N : K) = σ := by
      funext t
      by_cases h : t = n
      · subst h; simp [hσ.1]
      · simp [h]
    rw [e2] at e1
    rw [e1, hA.inhom X σ N (by omega) hσ]
    congr 1
    refine Finset.sum_congr rfl fun i hi => ?_
    rw [Finset.mem_range] at hi
    rw [coeff_val hL.coeffs, Nat.cast_sub (by omega)]
    push_cast
    rfl
  inhomVal := hA.inhom
  shape := hA.shape
  auto := hA.auto
  out := hA.out

variable [DecidableEq K]

theorem returned (hL : IsLinear n ms e st co) (hA : Assumed I E OL O n B ρ e st co f roots old p rv b P) {x : Expr}
    (h : Returned E OL n e st f roots old x) : Shape B (ICs f st.order) x ∧ IsSolution I n e ρ x f st.order := by
  have ho := (CapstoneExact.linear_value (I := I) hL.ok (Or.inl hL.ty) hL.nonzero).1
  induction h with
  | solve h =>
    refine SolveLin.C145_constant_coefficients hA.ops ho (a := fun i => ((co.getD i 0 : ℚ) : K)) ?_ (recIs hL hA) ?_ ?_ hA.rootsOk hA.terms
      hA.bases hA.solved hA.noRest h
    · exact_mod_cast hL.last
    · intro hk X σ N _ _
      exact coeff_val hL.coeffs _ _ 1
    · rw [hL.coeffs, show (Expr.num 0) = Expr.num ((0 : ℚ)) from rfl, List.getD_map]
      simp [Shape]
  | rename h ih =>
    refine ⟨hA.rename.shape _ ih.1, fun X hX N hN => ?_⟩
    rw [hA.rename.val _ ih.1 X N hN, ih.2 X hX N hN]

/-- Everything that C136 and C137 assume holds. -/
theorem sound (hL : IsLinear n ms e st co) (hW : Wired E OL O n e st f roots old)
    (hA : Assumed I E OL O n B ρ e st co f roots old p rv b P) :
    SoundLinear I E O n B ρ e (fun i _ => ((co.getD (i + 1) 0 : ℚ) : K)) p (Returned E OL n e st f roots old) := by
  have ho := (CapstoneExact.linear_value (I := I) hL.ok (Or.inl hL.ty) hL.nonzero).1
  have hc := hW.classify
  constructor
  · rw [hc]; simp
  · rw [hc]; exact Or.inl rfl
  · rw [hc]; exact ho
  · exact hA.ops.nB
  · rw [hc]
    refine ⟨fun X N hN => ?_, fun N _ => ?_⟩
    · have := (recIs hL hA).lin X (update ρ n (N : K)) N hN (SolveLin.agrees_self n _ ρ N)
      rw [this]
      congr 1
      refine Finset.sum_congr rfl fun i _ => ?_
      rw [show N - (i + 1) = N - 1 - i by omega]
    · show ((co.getD (st.order - 1 + 1) 0 : ℚ) : K) ≠ 0
      rw [show st.order - 1 + 1 = st.order by omega]
      exact_mod_cast hL.last
  · intro b x h
    rw [hc] at h
    simp only at h
    rw [hW.solve] at h
    cases hs : solveLinear OL n e st.inhom f st.order true (st.coeffs.getD 1 (.num 0)) (some roots) old with
    | none => rw [hs] at h; cases h
    | some y =>
      rw [hs] at h
      simp only [Except.ok.injEq] at h
      exact .solve (h ▸ hs)
  · exact fun x h => .rename h
  · intro x h
    rw [hc]
    exact (returned hL hA h).1
  · exact hA.fresh
  · intro x h
    rw [hc]
    exact (returned hL hA h).2
  · rw [hc]; exact hW.onIC
  · rw [hc]; exact hA.renameIC
  · exact hA.lsolve
  · rw [hc]
    exact fun x m r h1 h2 => hA.simp x m r h1 h2

/-- **C148.**  The user writes `x(n) = e`; it is classified as linear of order `k` with constant coefficients, from the index `f` on.  Whatever
calls are made before, an answer of `exact_solution()`, `lower_bound()` or `upper_bound()` is the solution of the recurrence that the user
wrote: without initial conditions, an expression equal from `f` on to every sequence satisfying it; with initial conditions whose last `k`
indices are `j, …, j+k-1` an expression without symbolic initial conditions equal from `j` on to the sequence (there is one) with the given
values that satisfies it. -/
theorem C148_answer_is_solution (hL : IsLinear n ms e st co) (hW : Wired E OL O n e st f roots old)
    (hA : Assumed I E OL O n B ρ e st co f roots old p rv b P) {s : RecState} (h : RecReach E e s) {w : Which} {v : Expr}
    (hv : (query E w s).2 = some v) :
    (s.ics = [] → IsSolution I n e ρ v f st.order) ∧
    (s.ics ≠ [] → GoodICs I E O n B e (Returned E OL n e st f roots old) s.ics →
      ∃ j, f ≤ j ∧ LastKeys s.ics st.order j ∧ (∃ X, Fits I n e ρ s.ics st.order j X) ∧
        ∀ X, Fits I n e ρ s.ics st.order j X → ∀ N : ℕ, j ≤ N → ∀ Y, eval (withX I Y) (update ρ n N) v = X N) := by
  have := Capstone.C136_answer_is_solution (sound hL hW hA) h hv
  rw [hW.classify] at this
  exact this

/-- **C148**, the values: with initial conditions in force the value returned by `evaluate_exact_solution(N)` (or by the evaluation of a
bound) is the value of the sequence that takes the given values and satisfies the recurrence that the user wrote. -/
theorem C148_evaluation_is_value {B : String → Prop} (hL : IsLinear "n" ms e st co) (hW : Wired E OL O "n" e st f roots old)
    (hA : Assumed I E OL O "n" B ρ e st co f roots old p rv b P) {s : RecState} (h : RecReach E e s) (hi : s.ics ≠ [])
    (hm : GoodICs I E O "n" B e (Returned E OL "n" e st f roots old) s.ics) {w : Which} {v : Expr} (hv : (query E w s).2 = some v)
    (hb : idxNe "n" v = true) {j : ℕ} (hj : LastKeys s.ics st.order j) {X : K → K} (hX : Fits I "n" e ρ s.ics st.order j X) {N : ℕ}
    (hN : j ≤ N) : ∃ u, (evaluate (query E w) s N).2 = .value u ∧ ∀ Y, eval (withX I Y) ρ u = X N := by
  have := Capstone.C137_evaluation_is_value (sound hL hW hA) h hi hm hv hb (j := j) (X := X)
  rw [hW.classify] at this
  exact this hj hX hN

end

end Purrs.CapstoneLinear
