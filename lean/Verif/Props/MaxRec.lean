import Verif.Model.MaxRec
import Verif.Props.Capstone
import Verif.Props.Scalar
import Verif.Props.NonLinear

/-!
# Recurrences with a maximum, `x(n) = max(f, a)` (C156)

The library reads `x(n) = max(f, a)` as `x(0) = a` and `x(n) = max(f, a)` for `n ≥ 1`; values are real numbers.
-/

set_option linter.unusedSectionVars false

namespace Purrs.MaxRec

open Function (update update_of_ne update_self)
open OrderRed (withX eval_noX SolvesAt IsSolution)
open Capstone (SoundLinear GoodICs Fits LastKeys)
open RecState

/-! ### What the auxiliary object goes through -/

theorem aux_compute {E : Engine} {f : Expr} (h : (E.classify f).1 ≠ .notYet) : computeExact E (aux E f) = computeExact E (RecState.new f) := by
  unfold computeExact
  rw [computeExactTried_fresh (by rw [aux, RecState.classify, RecState.new, if_neg (by simp)]) (by rw [aux, RecState.classify, RecState.new, if_neg (by simp)]; simp),
    computeExactTried_fresh rfl (by simp [RecState.new])]
  have e1 : RecState.classify E { aux E f with tried := true } = RecState.classify E { RecState.new f with tried := true } := by
    have e2 : aux E f = { RecState.new f with cl := (E.classify f).1, info := (E.classify f).2.1, rhs := (E.classify f).2.2 } := by
      rw [aux, RecState.classify, RecState.new, if_neg (by simp)]
    rw [e2]
    simp [RecState.classify, RecState.new, h]
  rw [e1]

/-- If a solution comes out, it is an answer of the auxiliary object, after a computation, on the initial condition `x(0) = a`. -/
theorem solve_cases {E : Engine} {e v : Expr} (h : solve E e = .solution v) : ∃ a f u, maxArgs e = some (a, f) ∧
    (E.classify f).1 = .success ∧ isLinear (E.classify f).2.1.ty = true ∧
    RecReach E f u ∧ u.ics = [(0, a)] ∧ (query E .exact u).2 = some v := by
  unfold solve at h
  cases hm : maxArgs e with
  | none => rw [hm] at h; cases h
  | some q =>
    obtain ⟨a, f⟩ := q
    rw [hm] at h
    simp only at h
    have e2 : aux E f = { RecState.new f with cl := (E.classify f).1, info := (E.classify f).2.1, rhs := (E.classify f).2.2 } := by
      rw [aux, RecState.classify, RecState.new, if_neg (by simp)]
    by_cases h1 : (aux E f).cl ≠ .success
    · rw [if_pos h1] at h; cases h
    · rw [if_neg h1] at h
      by_cases h2 : isLinear (aux E f).info.ty = false
      · rw [if_pos h2] at h; cases h
      · rw [if_neg h2] at h
        have h1' : (E.classify f).1 = .success := by
          have := not_not.mp h1
          rwa [e2] at this
        have h2' : isLinear (E.classify f).2.1.ty = true := by
          have := Bool.of_not_eq_false h2
          rwa [e2] at this
        rw [aux_compute (by rw [h1']; simp)] at h
        have ht : RecReach E f (computeExact E (RecState.new f)).1 := .step .computeExact .new
        generalize computeExact E (RecState.new f) = r at h ht
        obtain ⟨t, st⟩ := r
        cases st with
        | none => cases h
        | some st =>
          cases st with
          | success =>
            simp only at h ht
            unfold ask at h
            have hu : RecReach E f (setICs E t [(0, a)]).1 := .step (.setICs _) ht
            have hics : (setICs E t [(0, a)]).2 = .accepted → (setICs E t [(0, a)]).1.ics = [(0, a)] := by
              unfold setICs setICsClassified
              generalize RecState.classify E (if t.ics ≠ [] then t.resetICs else t) = w
              split_ifs with hc
              · intro h; cases h
              · cases hk : checkICs w.info [(0, a)] <;> simp
            generalize setICs E t [(0, a)] = r at h hu hics
            obtain ⟨u, res⟩ := r
            cases res with
            | accepted =>
              simp only at h hu hics
              cases hg : (getExact E u).2 with
              | none => rw [hg] at h; cases h
              | some x =>
                rw [hg] at h
                injection h with h
                subst h
                exact ⟨a, f, u, rfl, h1', h2', hu, hics trivial, hg⟩
            | invalidArgument => cases h
            | runtimeError => cases h
            | ub => cases h
          | _ => cases h

/-- The first argument is the number or symbol. -/
theorem maxArgs_spec {e a f : Expr} (h : maxArgs e = some (a, f)) : isLeaf a = true ∧ (e = .fn .max [a, f] ∨ e = .fn .max [f, a]) := by
  unfold maxArgs at h
  split at h
  · split_ifs at h with h1 h2
    · injection h with h; injection h with h3 h4; subst h3; subst h4
      exact ⟨h1, Or.inl rfl⟩
    · injection h with h; injection h with h3 h4; subst h3; subst h4
      exact ⟨h2, Or.inr rfl⟩
  · cases h

theorem eval_max {X : ℝ → ℝ} {σ : String → ℝ} {e a f : Expr} (h : maxArgs e = some (a, f)) :
    eval (withX (realInterp 0) X) σ e = max (eval (withX (realInterp 0) X) σ f) (eval (withX (realInterp 0) X) σ a) := by
  rw [NonLinear.withX_real]
  rcases (maxArgs_spec h).2 with rfl | rfl
  · simp [eval, realInterp, realFn, max_comm]
  · simp [eval, realInterp, realFn]

/-! ### The answer -/

variable {E E' : Engine} {O : OnIC.Ops} {n : String} {B : String → Prop} {ρ : String → ℝ} {e f a : Expr} {α : ℕ → ℕ → ℝ} {p : ℕ → ℝ} {P : Expr → Prop}

/-- The outcome is the answer for the linear recurrence `x(n) = f` on `x(0) = a`; its order is 1 and its first valid index 0. -/
theorem linear_value {v : Expr} (hS : SoundLinear (realInterp 0) E O n B ρ f α p P) (hm : maxArgs e = some (a, f))
    (ha : GoodICs (realInterp 0) E O n B f P [(0, a)]) (h : solve E e = .solution v) :
    (E.classify f).2.1.order = 1 ∧ (E.classify f).2.1.first = 0 ∧
    ∀ X : ℝ → ℝ, X 0 = eval (withX (realInterp 0) X) ρ a → SolvesAt (realInterp 0) n f ρ X 1 → ∀ (N : ℕ) Y,
      eval (withX (realInterp 0) Y) (update ρ n N) v = X N := by
  obtain ⟨a', f', u, hm', -, -, hr, hi, hv⟩ := solve_cases h
  rw [hm] at hm'
  injection hm' with hm'
  injection hm' with h1 h2
  subst h1; subst h2
  obtain ⟨j, hj, hk, -, hval⟩ := (Capstone.C136_answer_is_solution hS hr hv).2 (by rw [hi]; simp) (by rw [hi]; exact ha)
  rw [hi] at hk hval
  have ho : (E.classify f).2.1.order = 1 := by
    have h1 := hS.order
    have h2 := hk.1 0 (by omega)
    have h3 := hk.1 ((E.classify f).2.1.order - 1) (by omega)
    simp [ICMap.keys] at h2 h3
    omega
  have hj0 : j = 0 := by
    have h2 := hk.1 0 (by omega)
    simpa [ICMap.keys] using h2
  subst hj0
  refine ⟨ho, by omega, fun X hX0 hX N Y => ?_⟩
  refine hval X ⟨by rw [ho]; exact hX, fun q hq _ => ?_⟩ N (by omega) Y
  simp only [List.mem_singleton] at hq
  subst hq
  simpa using hX0

/-- What the solver returns, possibly with the new symbols renamed. -/
inductive Returned (E' E : Engine) (e : Expr) : Expr → Prop
  | solve {v : Expr} : solve E e = .solution v → Returned E' E e v
  | rename {x : Expr} : Returned E' E e x → Returned E' E e (E'.rename x)

/-- The parts behind the object are those of the library (an exception thrown by the solver counts as a failure); the renaming of the symbols keeps the
values. -/
structure Wired (E' E : Engine) (n : String) (ρ : String → ℝ) (e : Expr) : Prop where
  classify : E'.classify e = (.success, ⟨.maxFn, 0, 0, 0⟩, e)
  solve : ∀ b, E'.solve e ⟨.maxFn, 0, 0, 0⟩ b =
    match solve E e with
    | .solution v => .ok v
    | .status s => .error s
    | .throws => .error .tooComplex
  rename : ∀ x, Returned E' E e x → ∀ (N : ℕ) Y,
    eval (withX (realInterp 0) Y) (update ρ n N) (E'.rename x) = eval (withX (realInterp 0) Y) (update ρ n N) x

theorem closed (hW : Wired E' E n ρ e) : Capstone.Closed E' e (Returned E' E e) fun _ _ => False := by
  have hc := hW.classify
  have hno : ∀ m, checkICs (E'.classify e).2.1 m ≠ .accepted := by
    intro m
    rw [hc]
    simp [checkICs]
  refine ⟨by rw [hc]; simp, by rw [hc]; simp, ?_, fun x hx => .rename hx, fun x m _ h => absurd h (hno m), fun x m _ h => absurd h (hno m)⟩
  intro b x h
  rw [hc] at h
  simp only at h
  rw [hW.solve] at h
  cases hs : solve E e with
  | solution v =>
    rw [hs] at h
    injection h with h
    subst h
    exact .solve hs
  | status s => rw [hs] at h; cases h
  | throws => rw [hs] at h; cases h

theorem returned_value (hW : Wired E' E n ρ e) {x : Expr} (h : Returned E' E e x) : ∃ v, solve E e = .solution v ∧ ∀ (N : ℕ) Y,
    eval (withX (realInterp 0) Y) (update ρ n N) x = eval (withX (realInterp 0) Y) (update ρ n N) v := by
  induction h with
  | solve h => exact ⟨_, h, fun _ _ => rfl⟩
  | rename hx ih =>
    obtain ⟨v, hv, h⟩ := ih
    exact ⟨v, hv, fun N Y => (hW.rename _ hx N Y).trans (h N Y)⟩

/-- **C156.**  The user writes `x(n) = max(f, a)` with a number or symbol `a`, in either order; `f` is taken for a linear recurrence of finite order.
Whatever calls were made before, an answer of `exact_solution()`, `lower_bound()` or `upper_bound()` has, at every `N`, the value of the sequence
`x(0) = a`, `x(n) = max(f, a)`, provided `f` is never below `a` along this sequence.  Missing: sequences along which `f` falls below `a`
(`C156_falling_refuted`). -/
theorem C156_answer_is_solution_partial (hS : SoundLinear (realInterp 0) E O n B ρ f α p P) (hm : maxArgs e = some (a, f))
    (ha : GoodICs (realInterp 0) E O n B f P [(0, a)]) (hW : Wired E' E n ρ e) {s : RecState} (hs : RecReach E' e s) {w : Which} {v : Expr}
    (hv : (query E' w s).2 = some v) {X : ℝ → ℝ} (h0 : X 0 = eval (withX (realInterp 0) X) ρ a) (hX : SolvesAt (realInterp 0) n e ρ X 1)
    (hge : ∀ N : ℕ, 1 ≤ N → eval (withX (realInterp 0) X) (update ρ n N) a ≤ eval (withX (realInterp 0) X) (update ρ n N) f) (N : ℕ) (Y : ℝ → ℝ) :
    eval (withX (realInterp 0) Y) (update ρ n N) v = X N := by
  have hR : Returned E' E e v := by
    obtain ⟨h1, h2, -⟩ := Capstone.answers (closed hW) hs hv
    by_cases hi : s.ics = []
    · exact h1 hi
    · exact ((h2 hi).2).elim
  obtain ⟨v', hv', hval⟩ := returned_value hW hR
  rw [hval]
  refine (linear_value hS hm ha hv').2.2 X h0 (fun M hM => ?_) N Y
  rw [hX M hM, eval_max hm, max_eq_left (hge M hM)]

/-- **C156**, when `f` never falls below `a`: `f` is `c(n) x(n-1) + g(n)` with `c(n) ≥ 1`, `g(n) ≥ 0`, and `a ≥ 0` (not depending on `n`). -/
theorem C156_growing (hS : SoundLinear (realInterp 0) E O n B ρ f α p P) (hm : maxArgs e = some (a, f))
    (ha : GoodICs (realInterp 0) E O n B f P [(0, a)]) (hW : Wired E' E n ρ e) {s : RecState} (hs : RecReach E' e s) {w : Which} {v : Expr}
    (hv : (query E' w s).2 = some v) {b : ℝ} (hb : 0 ≤ b)
    (hab : ∀ X σ, σ = ρ ∨ (∃ N : ℕ, σ = update ρ n N) → eval (withX (realInterp 0) X) σ a = b)
    (hc : ∀ N, 1 ≤ N → 1 ≤ α 0 N) (hg : ∀ N, 1 ≤ N → 0 ≤ p N) {X : ℝ → ℝ} (h0 : X 0 = b) (hX : SolvesAt (realInterp 0) n e ρ X 1) (N : ℕ) (Y : ℝ → ℝ) :
    eval (withX (realInterp 0) Y) (update ρ n N) v = X N := by
  refine C156_answer_is_solution_partial hS hm ha hW hs hv (by rw [hab _ _ (Or.inl rfl)]; exact h0) hX (fun M hM => ?_) N Y
  have hR : Returned E' E e v := by
    obtain ⟨h1, h2, -⟩ := Capstone.answers (closed hW) hs hv
    by_cases hi : s.ics = []
    · exact h1 hi
    · exact ((h2 hi).2).elim
  obtain ⟨v', hv', -⟩ := returned_value hW hR
  obtain ⟨ho, hf, -⟩ := linear_value hS hm ha hv'
  have hlow : ∀ k : ℕ, b ≤ X (k : ℝ) := by
    intro k
    rcases Nat.eq_zero_or_pos k with rfl | hk
    · simp [h0]
    · rw [hX k hk, eval_max hm, hab _ _ (Or.inr ⟨k, rfl⟩)]
      exact le_max_right _ _
  rw [hab _ _ (Or.inr ⟨M, rfl⟩), hS.linear.eq X M (by omega), ho]
  simp only [Finset.sum_range_one]
  have h1 := hlow (M - 1 - 0)
  have h2 := hc M hM
  have h3 := hg M hM
  nlinarith

/-- **C156**: a sequence is determined by `x(0) = a` and `x(n) = max(f, a)`, so at most one expression (up to its values) is right. -/
theorem unique (hS : SoundLinear (realInterp 0) E O n B ρ f α p P) (hm : maxArgs e = some (a, f)) (ho : (E.classify f).2.1.order = 1)
    (hf : (E.classify f).2.1.first = 0) {b : ℝ} (hab : ∀ X (N : ℕ), eval (withX (realInterp 0) X) (update ρ n N) a = b) {X Z : ℝ → ℝ}
    (h0 : X 0 = Z 0) (hX : SolvesAt (realInterp 0) n e ρ X 1) (hZ : SolvesAt (realInterp 0) n e ρ Z 1) (N : ℕ) : X N = Z N := by
  induction N with
  | zero => simpa using h0
  | succ N ih =>
    rw [hX (N + 1) (by omega), hZ (N + 1) (by omega), eval_max hm, eval_max hm, hab, hab, hS.linear.eq X _ (by omega), hS.linear.eq Z _ (by omega), ho]
    simp [ih]

/-- **C156**, the refusals: if the linear recurrence has an order greater than 1 or a first valid index greater than 0, no solution is returned; if the
linear recurrence was solved, an exception leaves `compute_exact_solution()`. -/
theorem C156_refused (hm : maxArgs e = some (a, f)) (hok : (E.classify f).1 = .success)
    (hty : (E.classify f).2.1.ty = .linConst ∨ (E.classify f).2.1.ty = .linVar)
    (ho : 2 ≤ (E.classify f).2.1.order ∨ 1 ≤ (E.classify f).2.1.first) :
    (∀ v, solve E e ≠ .solution v) ∧
    ∀ x, E.solve (E.classify f).2.2 (E.classify f).2.1 false = .ok x → solve E e = .throws := by
  have e2 : aux E f = { RecState.new f with cl := (E.classify f).1, info := (E.classify f).2.1, rhs := (E.classify f).2.2 } := by
    rw [aux, RecState.classify, RecState.new, if_neg (by simp)]
  have hbad : ∀ t : RecState, t.cl = .success → t.info = (E.classify f).2.1 → t.ics = [] → ask E t a = .throws := by
    intro t h1 h2 h3
    have hck : checkICs (E.classify f).2.1 [(0, a)] = .invalidArgument := by
      have : ∀ b, checkFinite (E.classify f).2.1 b [(0, a)] = .invalidArgument := by
        intro b
        unfold checkFinite
        by_cases h : ([(0, a)] : ICMap).length < (E.classify f).2.1.order
        · rw [if_pos h]
        · rw [if_neg h]
          have : 0 < (E.classify f).2.1.first := by
            rcases ho with ho | ho
            · simp at h; omega
            · omega
          simp [largestKey, this]
      unfold checkICs
      rcases hty with h | h <;> rw [h] <;> exact this _
    unfold ask setICs
    rw [if_neg (by simp [h3])]
    have hcl : RecState.classify E t = t := by
      unfold RecState.classify
      rw [if_pos (by rw [h1]; simp)]
    rw [hcl, setICsClassified, if_neg (by simp [h1]), h2, hck]
  have hlin : isLinear (E.classify f).2.1.ty = true := by rcases hty with h | h <;> simp [isLinear, h]
  have hcomp : computeExact E (aux E f) = ((computeFinite E { aux E f with tried := true }).map id some) := by
    have hcl : RecState.classify E { aux E f with tried := true } = { aux E f with tried := true } := by
      unfold RecState.classify
      rw [if_pos (by rw [e2, hok]; simp)]
    unfold computeExact
    rw [computeExactTried_fresh (by rw [e2]; rfl) (by rw [e2]; simp [RecState.new]), hcl, if_pos (by rw [e2]; exact hok)]
    rcases hty with h | h <;> simp [e2, h]
  have hsolve : solve E e = match computeExact E (aux E f) with
      | (t, some .success) => ask E t a
      | (_, some st) => .status st
      | (_, none) => .throws := by
    unfold solve
    rw [hm]
    simp only
    rw [if_neg (by rw [e2]; simp [hok]), if_neg (by rw [e2]; simp [hlin])]
    rfl
  have hcf : computeFinite E { aux E f with tried := true } = match E.solve (E.classify f).2.2 (E.classify f).2.1 false with
      | .error st => ({ aux E f with tried := true }, st)
      | .ok x => ({ { aux E f with tried := true } with exact := some x, lower := some x, upper := some x }, .success) := by
    unfold computeFinite
    rw [e2]
    simp only [RecState.new, List.isEmpty_nil, Bool.not_true]
    cases E.solve (E.classify f).2.2 (E.classify f).2.1 false <;> simp
  rw [hcf] at hcomp
  constructor
  · intro v hv
    rw [hsolve, hcomp] at hv
    cases hx : E.solve (E.classify f).2.2 (E.classify f).2.1 false with
    | error st =>
      rw [hx] at hv
      cases st with
      | success =>
        simp only [Prod.map] at hv
        rw [hbad _ (by simp [e2, hok]) (by simp [e2]) (by simp [e2, RecState.new])] at hv
        cases hv
      | _ => simp [Prod.map] at hv
    | ok x =>
      rw [hx] at hv
      simp only [Prod.map] at hv
      rw [hbad _ (by simp [e2, hok]) (by simp [e2]) (by simp [e2, RecState.new])] at hv
      cases hv
  · intro x hx
    rw [hsolve, hcomp, hx]
    simp only [Prod.map]
    exact hbad _ (by simp [e2, hok]) (by simp [e2]) (by simp [e2, RecState.new])

/-- The initial condition is accepted and the solution is there. -/
theorem ask_some {E : Engine} {t : RecState} {a x : Expr} (h1 : t.cl = .success) (h2 : t.ics = []) (h3 : t.exact = some x)
    (hck : checkICs t.info [(0, a)] = .accepted) : ∃ v, ask E t a = .solution v := by
  have hcl : RecState.classify E t = t := by
    unfold RecState.classify
    rw [if_pos (by rw [h1]; simp)]
  unfold ask setICs
  rw [if_neg (by simp [h2]), hcl, setICsClassified, if_neg (by simp [h1]), hck]
  unfold getExact
  simp only [h3]
  cases t.evExact <;> split_ifs
  all_goals exact ⟨_, rfl⟩

/-- **C156**, the statuses: `TOO_COMPLEX` is returned exactly if no argument is a number or symbol, or the other argument is not classified, or not as a
linear recurrence of finite order; otherwise a failure of the solver is passed on. -/
theorem C156_status (E : Engine) (e : Expr) :
    (maxArgs e = none → solve E e = .status .tooComplex) ∧
    ∀ a f, maxArgs e = some (a, f) →
      ((E.classify f).1 ≠ .success → solve E e = .status .tooComplex) ∧
      ((E.classify f).1 = .success → ¬ ((E.classify f).2.1.ty = .orderZero ∨ (E.classify f).2.1.ty = .linConst ∨ (E.classify f).2.1.ty = .linVar) →
        solve E e = .status .tooComplex) ∧
      ((E.classify f).1 = .success → ((E.classify f).2.1.ty = .orderZero ∨ (E.classify f).2.1.ty = .linConst ∨ (E.classify f).2.1.ty = .linVar) →
        (∀ st, E.solve (E.classify f).2.2 (E.classify f).2.1 false = .error st → st ≠ .success → solve E e = .status st) ∧
        ∀ x, E.solve (E.classify f).2.2 (E.classify f).2.1 false = .ok x →
          checkICs (E.classify f).2.1 [(0, a)] = .accepted → ∃ v, solve E e = .solution v) := by
  refine ⟨fun h => by rw [solve, h], fun a f hm => ?_⟩
  have e2 : aux E f = { RecState.new f with cl := (E.classify f).1, info := (E.classify f).2.1, rhs := (E.classify f).2.2 } := by
    rw [aux, RecState.classify, RecState.new, if_neg (by simp)]
  refine ⟨fun h => ?_, fun hok hty => ?_, fun hok hty => ?_⟩
  · rw [solve, hm]
    simp only
    rw [if_pos (by rw [e2]; exact h)]
  · rw [solve, hm]
    simp only
    rw [if_neg (by rw [e2]; simp [hok]), if_pos]
    rw [e2]
    simp only [isLinear, Bool.or_eq_false_iff, decide_eq_false_iff_not]
    tauto
  · have hlin : isLinear (E.classify f).2.1.ty = true := by
      simp only [isLinear, Bool.or_eq_true, decide_eq_true_eq]; tauto
    have hcl : RecState.classify E { aux E f with tried := true } = { aux E f with tried := true } := by
      unfold RecState.classify
      rw [if_pos (by rw [e2, hok]; simp)]
    have hcomp : computeExact E (aux E f) = ((computeFinite E { aux E f with tried := true }).map id some) := by
      unfold computeExact
      rw [computeExactTried_fresh (by rw [e2]; rfl) (by rw [e2]; simp [RecState.new]), hcl, if_pos (by rw [e2]; exact hok)]
      rcases hty with h | h | h <;> simp [e2, h]
    have hcf : computeFinite E { aux E f with tried := true } = match E.solve (E.classify f).2.2 (E.classify f).2.1 false with
        | .error st => ({ aux E f with tried := true }, st)
        | .ok x => ({ { aux E f with tried := true } with exact := some x, lower := some x, upper := some x }, .success) := by
      unfold computeFinite
      rw [e2]
      simp only [RecState.new, List.isEmpty_nil, Bool.not_true]
      cases E.solve (E.classify f).2.2 (E.classify f).2.1 false <;> simp
    have hsolve : solve E e = match computeExact E (aux E f) with
        | (t, some .success) => ask E t a
        | (_, some st) => .status st
        | (_, none) => .throws := by
      unfold solve
      rw [hm]
      simp only
      rw [if_neg (by rw [e2]; simp [hok]), if_neg (by rw [e2]; simp [hlin])]
      rfl
    rw [hcf] at hcomp
    refine ⟨fun st hst hne => ?_, fun x hx hck => ?_⟩
    · rw [hst] at hcomp
      rw [hsolve, hcomp]
      cases st <;> simp_all [Prod.map]
    · rw [hx] at hcomp
      rw [hsolve, hcomp]
      simp only [Prod.map, id]
      exact ask_some (by simp [e2, hok]) (by simp [e2, RecState.new]) rfl (by rw [← hck]; simp [e2])

end Purrs.MaxRec
