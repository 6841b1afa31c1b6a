import Verif.Props.OrderZero
import Verif.Props.WeightedExtractEx
import Verif.Props.CapstoneVarEx

/-!
# C155: cases

`x(n) = n + 1` meets the hypotheses; C65: `x(n) = sum(k, 0, n-1, x(k))^2` is taken for a recurrence of order zero.
-/

set_option linter.unusedSectionVars false

namespace Purrs.OrderZero

open Function (update update_of_ne update_self)
open OrderRed (withX eval_noX SolvesAt idxNe)
open Classify (St classify)
open SolveLin (solveLinear)
open WeightedExtract (S1 nMinus xk sumTo)
open RecState

/-- `n + 1`. -/
def exRhs : Expr := .add [.sym "n", .num 1]

/-- What the classification finds. -/
def exSt : St := ⟨.orderZero, exRhs, 0, [], 0, []⟩

theorem ex_classify : classify "n" 1000 exRhs = .ok exSt := by
  simp [Classify.classify, exRhs, exSt, addends, Classify.loopFrom, Classify.summand, Classify.findNonLinear, Classify.kindOf, Classify.single, Classify.isWeightedSum,
    Classify.addInhom, Classify.initSt, addE]

/-- The library. -/
noncomputable def engine : Engine where
  classify := fun e => (.success, ⟨.orderZero, 0, 0, 0⟩, e)
  solve := fun _ _ _ => .ok exRhs
  bound := fun _ _ _ => .error .tooComplex
  onIC := fun _ info m x => (OnIC.evaluate CapstoneVar.icOps "n" info ⟨0, .num 0, .num 0⟩ (.num 0) (.num 0) 0 (.num 0) m x).getD (.num 0)
  rename := id

theorem ex_wired : Wired engine CapstoneVar.exOps CapstoneVar.icOps "n" exRhs exSt where
  classify := rfl
  solve := fun _ => rfl
  onIC := ⟨⟨0, .num 0, .num 0⟩, .num 0, .num 0, 0, .num 0, fun _ _ => rfl⟩

theorem keeps_id (ρ : String → ℝ) : Keeps (realInterp 0) "n" ρ id := ⟨fun _ h => h, fun _ _ _ _ => rfl⟩

/-- The history: compute, then give `x(3) = 100`. -/
noncomputable def history : RecState :=
  ((RecState.new exRhs).step engine .computeExact).step engine (.setICs [(3, .num 100)])

theorem onIC_ex (m : List (ℕ × Expr)) : engine.onIC exRhs ⟨.orderZero, 0, 0, 0⟩ m exRhs = exRhs := by
  simp [engine, OnIC.evaluate, Verify.hasIC, hasX, exRhs]

theorem history_query : (query engine .exact history).2 = some (engine.onIC exRhs ⟨.orderZero, 0, 0, 0⟩ [(3, .num 100)] exRhs) := by rfl

theorem history_answer : ∃ v, (query engine .exact history).2 = some v ∧ idxNe "n" v = true :=
  ⟨exRhs, by rw [history_query, onIC_ex], by simp [idxNe, exRhs]⟩

theorem ex_solves (ρ : String → ℝ) : SolvesAt (realInterp 0) "n" exRhs ρ (fun t => t + 1) 0 := by
  intro N _
  simp [exRhs, eval]

/-- **C155**, a concrete case: all hypotheses hold for `x(n) = n + 1`; the value at 3 is 4 whatever initial condition was given there. -/
theorem C155_nonvacuous (ρ : String → ℝ) : RecReach engine exRhs history ∧ history.ics = [(3, .num 100)] ∧
    ∃ u, (evaluate (query engine .exact) history 3).2 = .value u ∧ ∀ Y, eval (withX (realInterp 0) Y) ρ u = 4 := by
  have hr : RecReach engine exRhs history := .step _ (.step _ .new)
  refine ⟨hr, rfl, ?_⟩
  obtain ⟨v, hv, hb⟩ := history_answer
  obtain ⟨u, hu, hval⟩ := C155_evaluation_is_value (N := 3) ex_classify (by simp [exRhs, hasX]) (by simp [exRhs, addends]) ex_wired (keeps_id ρ) (keeps_id ρ) hr hv hb
    (ex_solves ρ) (by simp)
  refine ⟨u, hu, fun Y => ?_⟩
  rw [hval Y]
  norm_num

/-- **C155**, the refusal at 0 is one of a right answer: for `x(n) = n + 1` the answer has at 0 the value 1 of the sequence, but its evaluation is refused. -/
theorem C155_zero_nonvacuous (ρ : String → ℝ) : ∃ s, RecReach engine exRhs s ∧ (∃ v, (query engine .exact s).2 = some v ∧
      ∀ Y, eval (withX (realInterp 0) Y) (update ρ "n" ((0 : ℕ) : ℝ)) v = 1) ∧ SolvesAt (realInterp 0) "n" exRhs ρ (fun t => t + 1) 0 ∧
    (evaluate (query engine .exact) s 0).2 = .invalidArgument := by
  refine ⟨(RecState.new exRhs).step engine .computeExact, .step _ .new, ⟨exRhs, by rfl, fun Y => by simp [exRhs, eval]⟩, ex_solves ρ, by rfl⟩

/-- `sum(k, 0, n-1, x(k))^2`. -/
def rhsS : Expr := .pow S1 (.num 2)

theorem S_classify : classify "n" 1000 rhsS = .ok ⟨.orderZero, rhsS, 0, [], 0, []⟩ := by
  simp [Classify.classify, rhsS, addends, Classify.loopFrom, Classify.summand, Classify.findNonLinear, Classify.kindOf, Classify.single, Classify.isWeightedSum,
    Classify.addInhom, Classify.initSt, addE, S1, sumTo, nMinus, xk, hasXOf, has]

/-- **C65** is also false for sums: `x(n) = sum(k, 0, n-1, x(k))^2` is classified as of order zero, and the answer, the
right-hand side itself, depends on the unknown: at 1 it has the value `x(0)^2`. -/
theorem C65_sum_refuted (ρ : String → ℝ) (OL : SolveLin.Ops) (hs : ∀ x X (N : ℕ), eval (withX (realInterp 0) X) (update ρ "n" (N : ℝ)) (OL.simp x) =
    eval (withX (realInterp 0) X) (update ρ "n" (N : ℝ)) x) : ∃ st x, classify "n" 1000 rhsS = .ok st ∧ st.ty = .orderZero ∧ hasX st.inhom = true ∧
    solveLinear OL "n" rhsS st.inhom 0 st.order false (.num 0) none none = some x ∧
    ∀ X : ℝ → ℝ, eval (withX (realInterp 0) X) (update ρ "n" ((1 : ℕ) : ℝ)) x = X 0 ^ 2 := by
  refine ⟨_, OL.simp rhsS, S_classify, rfl, by simp [rhsS, S1, sumTo, xk, hasX], rfl, fun X => ?_⟩
  rw [hs, rhsS, eval]
  have h1 : eval (withX (realInterp 0) X) (update ρ "n" ((1 : ℕ) : ℝ)) S1 = X 0 := by
    have hbody : (fun v => eval (withX (realInterp 0) X) (bindIdx (update ρ "n" ((1 : ℕ) : ℝ)) (.sym "k") v) xk) = X := by
      funext v
      simp [eval, bindIdx, withX, xk]
    have := WeightedExtract.sumMeaning_real 0 X 0 0 (by omega)
    rw [S1, sumTo, eval, hbody]
    simp only [nMinus, eval, List.map_cons, List.map_nil, List.sum_cons, List.sum_nil, update_self]
    refine Eq.trans ?_ (this.trans (by simp))
    have e1 : (((1 : ℕ) : ℝ) + (((-1 : ℚ) : ℝ) + 0)) = ((0 : ℕ) : ℝ) := by norm_num
    have e2 : ((0 : ℚ) : ℝ) = ((0 : ℕ) : ℝ) := by norm_num
    rw [e1, e2]
    rfl
  rw [h1]
  simp only [eval]
  rw [show ((2 : ℚ) : ℝ) = ((2 : ℤ) : ℝ) by push_cast; rfl, (withX (realInterp 0) X).pw_int]
  norm_cast

end Purrs.OrderZero
