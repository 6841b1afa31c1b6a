import Verif.Props.ExactEnd
import Verif.Props.Classify
import Verif.Props.OnIC
import Mathlib.Data.Nat.Fib.Basic

/-!
# From the right-hand side written by the user to the solution (C139)

The classification (C36) and the solver of linear recurrences with constant coefficients (C64) put together.
-/

set_option linter.unusedSectionVars false

namespace Purrs.CapstoneExact

open Function (update)
open OrderRed (withX eval_noX SolvesAt)
open Classify (St classify Steps Piece)
open OnIC (LinearAt)
open Polynomial Purrs.AlgEq Purrs.Exact
open scoped Classical

section
variable {K : Type} [Field K] [CharZero K] {I : Interp K}

theorem steps_zero (J : Interp K) (ρ : String → K) {n : String} {k : ℕ} {as : List Expr} {st st' : St} (h : Steps n k as st st')
    (hd : (0 : ℚ) ∉ as.flatMap fun a => (factors a).filterMap (Classify.xDecr n))
    (h0 : eval J ρ (st.coeffs.getD 0 (.num 0)) = 0) : eval J ρ (st'.coeffs.getD 0 (.num 0)) = 0 := by
  induction h with
  | nil => exact h0
  | @cons k a as st st1 st2 p hty hk hp ha hs ih =>
    rw [List.flatMap_cons, hp.decs, List.mem_append, not_or] at hd
    apply ih hd.2
    cases p with
    | dec i c =>
      obtain ⟨-, rfl⟩ := ha
      have hi : i ≠ 0 := by
        rintro rfl
        exact hd.1 (by simp [Piece.decs])
      simp only
      rw [Classify.getD_insertCoeff, h0, if_neg hi, add_zero]
    | div d c => obtain ⟨-, rfl⟩ := ha; exact h0
    | inh e =>
      have ha : st1 = Classify.addInhom e st := ha
      subst ha; exact h0

/-- A right-hand side classified as linear of finite order, as a sum over the decrements `1, …, k`. -/
theorem linear_value {n : String} {ms : ℕ} {rhs : Expr} {st : St} (h : classify n ms rhs = .ok st)
    (hl : st.ty = .linConst ∨ st.ty = .linVar) (h0 : (0 : ℚ) ∉ Classify.decrements n rhs) :
    1 ≤ st.order ∧ st.coeffs.length = st.order + 1 ∧ ∀ (X : K → K) (ρ : String → K) (v : K),
      eval (withX I X) (update ρ n v) rhs =
        (∑ i ∈ Finset.range st.order, eval (withX I X) (update ρ n v) (st.coeffs.getD (i + 1) (.num 0)) * X (v - ((i : K) + 1)))
          + eval (withX I X) (update ρ n v) st.inhom := by
  obtain ⟨h1, h2, h3⟩ := Classify.C36_order h
  have hdec : Classify.decrements n rhs ≠ [] := by
    rcases hl with hl | hl
    · exact ((Classify.C36_type h).2.2.1.mp hl).1
    · obtain ⟨a, ha, hne, -⟩ := (Classify.C36_type h).2.1.mp hl
      obtain ⟨d, hd⟩ := List.exists_mem_of_ne_nil _ hne
      exact List.ne_nil_of_mem (List.mem_flatMap.mpr ⟨a, ha, hd⟩)
  have ho : 1 ≤ st.order := by
    obtain ⟨d, hd⟩ := List.exists_mem_of_ne_nil _ hdec
    obtain ⟨j, rfl, -⟩ := (Classify.C36_gcd h 1).mp (one_dvd _) d hd
    have hj : j ≠ 0 := by rintro rfl; exact h0 (by exact_mod_cast hd)
    have := h1 _ hd
    have : j ≤ st.order := by exact_mod_cast this
    omega
  have hlen : st.coeffs.length = st.order + 1 := by
    rcases h3 with h3 | h3
    · omega
    · exact h3
  refine ⟨ho, hlen, fun X ρ v => ?_⟩
  rw [Classify.C36_identity h (Or.inr hl), hlen, Finset.sum_range_succ', steps_zero _ _ (Classify.classify_steps h) h0 (by simp [Classify.initSt, eval])]
  simp

/-- **C139, linear form.**  A right-hand side classified as linear of finite order `k` is, at all `N ≥ f + k` and for all sequences, the
sum of the recorded coefficients times `x(N-1), …, x(N-k)` and of the recorded inhomogeneous term, and `k ≥ 1`: the form that the solver
and the treatment of the initial conditions (C114, C136) rely on. -/
theorem C139_linear_form {n : String} {ms : ℕ} {rhs : Expr} {st : St} (h : classify n ms rhs = .ok st)
    (hl : st.ty = .linConst ∨ st.ty = .linVar) (hc : ∀ c ∈ st.coeffs, hasX c = false) (hi : hasX st.inhom = false)
    (h0 : (0 : ℚ) ∉ Classify.decrements n rhs) (ρ : String → K) (f : ℕ) (Z : K → K)
    (hne : ∀ N : ℕ, f + st.order ≤ N → eval (withX I Z) (update ρ n N) (st.coeffs.getD st.order (.num 0)) ≠ 0) :
    1 ≤ st.order ∧ LinearAt I n rhs ρ f st.order (fun i N => eval (withX I Z) (update ρ n N) (st.coeffs.getD (i + 1) (.num 0)))
      (fun N => eval (withX I Z) (update ρ n N) st.inhom) := by
  obtain ⟨ho, hlen, hval⟩ := linear_value (I := I) h hl h0
  refine ⟨ho, ?_, ?_⟩
  · intro X N hN
    rw [hval, eval_noX I X Z _ hi]
    congr 1
    refine Finset.sum_congr rfl fun i hi => ?_
    rw [Finset.mem_range] at hi
    have hg : hasX (st.coeffs.getD (i + 1) (.num 0)) = false := by
      rw [List.getD_eq_getElem _ _ (by omega)]
      exact hc _ (List.getElem_mem _)
    rw [eval_noX I X Z _ hg]
    congr 2
    rw [Nat.sub_sub, Nat.cast_sub (by omega)]
    push_cast
    ring
  · intro N hN
    have := hne N hN
    rwa [show st.order - 1 + 1 = st.order by omega]

end

/-- **C139.**  The user writes `x(n) = rhs`, it is classified as linear with constant (rational) coefficients `co`, the last one not zero,
and `find_roots` succeeds on the characteristic equation built from them, with square-free factors of the kind handled correctly.  Then the
systems of the new method are solvable and whatever solutions are used, the expression returned has, from the first valid index on, the
values of the sequence `X` that satisfies `x(n) = rhs`. -/
theorem C139_rhs_to_solution {I : Interp ℂ} {n : String} {ms : ℕ} {rhs : Expr} {st : St} (h : classify n ms rhs = .ok st)
    (hl : st.ty = .linConst) {co : List ℚ} (hco : st.coeffs = co.map Expr.num) (hlast : co.getD (co.length - 1) 0 ≠ 0)
    (h0 : (0 : ℚ) ∉ Classify.decrements n rhs) {p : ℤ → ℂ} {ρ : String → ℂ} {f : ℕ}
    (hp : ∀ (X : ℂ → ℂ) (N : ℕ), f + st.order ≤ N → eval (withX I X) (update ρ n N) st.inhom = p N)
    {fac : ℚ[X] → List ℚ[X]} (hfac : GoodFactorizer fac) (fuel : ℕ) (sqf : List (ℚ[X] × ℕ)) (hsqf : IsSqfOf (buildCharEq co) sqf)
    (hcop : Squarefree (sqf.map Prod.fst).prod) (hh : ∀ g ∈ sqf, Handled g)
    {rs : List Root} {d : Bool} (hrs : findAllRoots fac fuel sqf [] = (some rs, d)) :
    (∀ (poly : ℂ[X]) (base : ℂ), base ≠ 0 →
      ∃ c, SpecialSolved (recC co p f) poly base (baseMult (rootPairs rs) base) c) ∧
    (∀ s x : ℤ → ℂ, ∃ u, ICSolved f (rootPairs rs) u s x) ∧
    ∀ ts : List (ExpTerm ℂ), Decomposes p ts → (∀ t ∈ ts, t.base ≠ 0) →
      (∀ t ∈ ts, SpecialSolved (recC co p f) t.poly t.base (baseMult (rootPairs rs) t.base) t.c) →
      ∀ (X : ℂ → ℂ) (u : ℕ → ℂ), SolvesAt I n rhs ρ X (f + st.order) →
        ICSolved f (rootPairs rs) u (newSpecial (rootPairs rs) ts) (fun m => X m) →
        ∀ N : ℕ, f ≤ N → newSolution (rootPairs rs) ts u N = X N := by
  obtain ⟨ho, hlen, hval⟩ := linear_value (I := I) h (Or.inl hl) h0
  have hcl : co.length = st.order + 1 := by rw [← hlen, hco, List.length_map]
  obtain ⟨c1, c2, c3⟩ := C64_end_to_end_partial hfac fuel co (by omega) hlast p f sqf hsqf hcop hh hrs
  refine ⟨c1, c2, fun ts h1 h2 h3 X u hX hu N hN => ?_⟩
  have := c3 ts h1 h2 h3 (fun m => X m) u ?_ hu N (by exact_mod_cast hN)
  · simpa using this
  · intro m hm
    have hk : (recC co p f).k = st.order := by show co.length - 1 = st.order; omega
    rw [hk] at hm ⊢
    have hf : ((recC co p f).f : ℤ) = f := rfl
    obtain ⟨N, rfl⟩ : ∃ N : ℕ, m = N := ⟨m.toNat, by omega⟩
    have hN' : f + st.order ≤ N := by omega
    have e := hX N hN'
    rw [hval, hp X N hN'] at e
    simp only [Int.cast_natCast]
    rw [e]
    congr 1
    refine Finset.sum_congr rfl fun i hi => ?_
    have hc : eval (withX I X) (update ρ n (N : ℂ)) (st.coeffs.getD (i + 1) (.num 0)) = (recC co p f).a (i + 1) := by
      rw [hco]
      show _ = ((co.getD (i + 1) 0 : ℚ) : ℂ)
      rw [show (Expr.num 0) = Expr.num ((0 : ℚ)) from rfl, List.getD_map]
      simp [eval]
    rw [hc]
    push_cast
    rfl

/-! ### The hypotheses are met -/

/-- `x(n-1) + x(n-2)`. -/
def fibRhs : Expr := .add [.fn .x [.add [.sym "n", .num (-1)]], .fn .x [.add [.sym "n", .num (-2)]]]

theorem fib_classify : classify "n" 1000 fibRhs = .ok ⟨.linConst, .num 0, 2, [.num 0, .num 1, .num 1], 1, []⟩ := by
  have d1 := Classify.getDecrement_mk "n" (-1) (by norm_num)
  have d2 := Classify.getDecrement_mk "n" (-2) (by norm_num)
  have o1 : Classify.computeOrder 1000 (- -1) 0 = .ok (1, 1) := by rfl
  have o2 : Classify.computeOrder 1000 (- -2) 1 = .ok (2, 2) := by rfl
  have h1 : Classify.summand "n" 1000 0 (.fn .x [.add [.sym "n", .num (-1)]]) Classify.initSt
      = .ok ⟨.linConst, .num 0, 1, [.num 0, .num 1], 1, []⟩ := by
    simp only [Classify.summand, Classify.findNonLinear, Classify.kindOf, Classify.single, Classify.singleX, d1, Classify.initSt, o1]
    simp [hasXOf, has, hasParameters, Classify.isAdd2, Classify.St.fresh, Classify.newGcd,
      Classify.insertCoeff]
  have h2 : Classify.summand "n" 1000 1 (.fn .x [.add [.sym "n", .num (-2)]]) ⟨.linConst, .num 0, 1, [.num 0, .num 1], 1, []⟩
      = .ok ⟨.linConst, .num 0, 2, [.num 0, .num 1, .num 1], 1, []⟩ := by
    simp only [Classify.summand, Classify.findNonLinear, Classify.kindOf, Classify.single, Classify.singleX, d2, o2]
    simp [hasXOf, has, hasParameters, Classify.isAdd2, Classify.St.fresh, Classify.newGcd, Classify.insertCoeff]
  simp only [classify, fibRhs, addends, Classify.loopFrom, h1, h2]

/-- The hypotheses of `C139_rhs_to_solution` (and of `C139_linear_form`) are met by `x(n) = x(n-1) + x(n-2)`: it is classified as linear
with constant coefficients, the search of the roots of `x^2 - x - 1` succeeds with two roots, and a solution of the recurrence exists. -/
theorem C139_nonvacuous : ∃ (st : St) (co : List ℚ) (sqf : List (ℚ[X] × ℕ)) (rs : List Root) (d : Bool),
    classify "n" 1000 fibRhs = .ok st ∧ st.ty = .linConst ∧ st.order = 2 ∧ st.coeffs = co.map Expr.num ∧ co.getD (co.length - 1) 0 ≠ 0 ∧
    (0 : ℚ) ∉ Classify.decrements "n" fibRhs ∧
    (∀ (I : Interp ℂ) (ρ : String → ℂ) (X : ℂ → ℂ) (N : ℕ), 0 + st.order ≤ N →
      eval (withX I X) (update ρ "n" N) st.inhom = (fun _ : ℤ => (0 : ℂ)) N) ∧
    GoodFactorizer (fun p => [p]) ∧ IsSqfOf (buildCharEq co) sqf ∧ Squarefree (sqf.map Prod.fst).prod ∧ (∀ g ∈ sqf, Handled g) ∧
    findAllRoots (fun p => [p]) 1 sqf [] = (some rs, d) ∧ rs.length = 2 ∧ Decomposes (fun _ => 0) ([] : List (ExpTerm ℂ)) ∧
    ∃ X : ℂ → ℂ, ∀ (I : Interp ℂ) (ρ : String → ℂ), SolvesAt I "n" fibRhs ρ X (0 + st.order) ∧ X 10 = 55 := by
  have hchar : buildCharEq [0, 1, 1] = ofInt (quad (-1) (-1)) := by
    have h1 : ofInt (quad (-1) (-1)) = X ^ 2 - X - 1 := by
      simp [ofInt, quad]; ring
    rw [h1]
    have h2 : charDenominators [0, 1, 1] = [] := by
      unfold charDenominators
      simp
    unfold buildCharEq
    rw [h2]
    simp [List.range_succ]
    try ring
  refine ⟨_, [0, 1, 1], [(ofInt (quad (-1) (-1)), 1)], [⟨(solve2 ((-1 : ℤ) : ℂ) ((-1 : ℤ) : ℂ)).1, false, 1⟩,
      ⟨(solve2 ((-1 : ℤ) : ℂ) ((-1 : ℤ) : ℂ)).2, false, 1⟩], true, fib_classify, rfl, rfl, rfl, by simp, ?_, ?_, fac_single, ?_, ?_, ?_, ?_,
      rfl, fun n => by simp, ?_⟩
  · have d1 := Classify.getDecrement_mk "n" (-1) (by norm_num)
    have d2 := Classify.getDecrement_mk "n" (-2) (by norm_num)
    simp [Classify.decrements, fibRhs, addends, factors, Classify.xDecr, d1, d2]
  · intro I ρ X N _
    simp [eval]
  · rw [hchar]
    refine ⟨⟨1, one_ne_zero, by simp⟩, ?_⟩
    intro f hf
    rw [List.mem_singleton] at hf
    subst hf
    exact ⟨⟨_, rfl⟩, by rw [(quadQ _ _).2.2.1]; omega, (quad_irreducible golden).squarefree, le_refl _⟩
  · simpa using (quad_irreducible golden).squarefree
  · intro g hg
    rw [List.mem_singleton] at hg
    subst hg
    exact Or.inl ⟨rfl, golden_noBinomial⟩
  · unfold findAllRoots
    simp only [List.foldl_cons, List.foldl_nil, Option.bind_some]
    rw [quad_run _ (by decide) (by decide) golden, if_neg (by decide)]
    simp
  · obtain ⟨X, hv⟩ : ∃ X : ℂ → ℂ, ∀ m : ℕ, X m = Nat.fib m :=
      ⟨Function.extend Nat.cast (fun m : ℕ => (Nat.fib m : ℂ)) 0, fun m => Nat.cast_injective.extend_apply _ _ m⟩
    refine ⟨X, fun I ρ => ?_⟩
    refine ⟨?_, ?_⟩
    · intro N hN
      have hN : 2 ≤ N := by simpa using hN
      obtain ⟨m, rfl⟩ : ∃ m, N = m + 2 := ⟨N - 2, by omega⟩
      rw [hv]
      have e1 : ((m + 2 : ℕ) : ℂ) + -1 = ((m + 1 : ℕ) : ℂ) := by push_cast; ring
      have e2 : ((m + 2 : ℕ) : ℂ) + -2 = ((m : ℕ) : ℂ) := by push_cast; ring
      simp only [fibRhs, eval, List.map_cons, List.map_nil, List.sum_cons, List.sum_nil, withX, Function.update_self]
      simp only [add_zero]
      rw [show (((-1 : ℚ)) : ℂ) = -1 by push_cast; rfl, show (((-2 : ℚ)) : ℂ) = -2 by push_cast; rfl, e1, e2, hv, hv, Nat.fib_add_two]
      push_cast
      ring
    · have := hv 10
      rw [show ((10 : ℕ) : ℂ) = 10 by norm_num] at this
      rw [this]
      norm_num [Nat.fib]

end Purrs.CapstoneExact
