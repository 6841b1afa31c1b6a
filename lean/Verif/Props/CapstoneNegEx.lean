import Verif.Props.CapstoneNeg
import Verif.Props.CapstoneLinearEx

/-!
# A case meeting the hypotheses of C157: `x(n) = 1/2 x(n+2) - 1/2 x(n+1) - 1`, recorded as `x(n) = x(n-1) + 2 x(n-2) + 2`
-/

set_option linter.unusedSectionVars false

namespace Purrs.CapstoneNeg

open Function (update update_of_ne update_self)
open OrderRed (withX eval_noX eval_x SolvesAt IsSolution idxNe)
open Classify (classify)
open Eliminate (Rewriter RwOk findMax elimNegative)
open Capstone (SoundLinear GoodICs Fits LastKeys RightOn Closed)
open SolveLin (exRhs exOps exRoots)
open CapstoneLinear (sol icOps exSt)
open RecState
open WeightedAvg (shiftN divE)
open Classify (xn)

/-- What the user writes. -/
def userRhs : Expr := .add [.mul [.num (1 / 2), .fn .x [.add [.sym "n", .num 2]]], .mul [.num (-1 / 2), .fn .x [.add [.sym "n", .num 1]]], .num (-1)]

theorem ex_negative : classify "n" 1000 userRhs = .fail .negative := by
  have d1 := Classify.getDecrement_mk "n" 2 (by norm_num)
  have o1 : Classify.computeOrder 1000 (-2) 0 = .error .negative := by rfl
  have h1 : Classify.summand "n" 1000 0 (.mul [.num (1 / 2), .fn .x [.add [.sym "n", .num 2]]]) Classify.initSt = .fail .negative := by
    have hl : Classify.findNonLinear "n" (.mul [.num (1 / 2), .fn .x [.add [.sym "n", .num 2]]]) = .linear := by
      simp [Classify.findNonLinear, Classify.kindOf, Classify.nlStep, hasXOf, Classify.isXn]
      split <;> simp
    simp only [Classify.summand, hl, Classify.product, List.foldr_cons, List.foldr_nil, Classify.factorStep, Classify.factorX, d1, Classify.initSt, o1]
    simp [has, hasParameters, Classify.isAdd2]
  rw [userRhs]
  simp only [Classify.classify, addends, Classify.loopFrom, h1]

theorem ex_findMax : findMax "n" userRhs = (2, .num (1 / 2)) := by
  have d1 := Classify.getDecrement_mk "n" 2 (by norm_num)
  have d2 := Classify.getDecrement_mk "n" 1 (by norm_num)
  simp [findMax, userRhs, addends, Eliminate.maxFactor, Eliminate.maxStep, Eliminate.assignMax, Eliminate.decOf, d1, d2, mulE]

/-- What comes out before the last expansion. -/
def raw : Expr := elimNegative "n" Eliminate.idRw userRhs

theorem raw_val {K : Type} [Field K] [CharZero K] (J : Interp K) (ρ : String → K) : eval J ρ raw = eval J ρ exRhs := by
  rw [raw, elimNegative, ex_findMax, CapstoneLinear.ex_form]
  simp [Eliminate.idRw, eval_addE, WeightedAvg.eval_divE, eval_subE, eval_negE, substitute, userRhs, eval, eval_mulE, eval_addE, WeightedAvg.eval_shiftN, Classify.xn]
  all_goals
    have h1 : (1 : K) + (ρ "n" + -2) = ρ "n" + -1 := by ring
    rw [h1]
    field_simp
    ring

/-- What is divided and what is subtracted before the first expansion. -/
def quotient : Expr := divE (subE (substitute (.sym "n") (shiftN "n" (-((2 : ℤ) : ℚ))) userRhs) (.fn .x [shiftN "n" (-((2 : ℤ) : ℚ))]))
  (negE (substitute (.sym "n") (shiftN "n" (-((2 : ℤ) : ℚ))) (.num (1 / 2))))

theorem raw_eq : raw = addE quotient (xn "n") := by
  rw [raw, elimNegative, ex_findMax]
  rfl

theorem quotient_ne : quotient ≠ raw := by
  intro h
  have h1 : eval (withX ratInterp fun _ => 1) (fun _ => 0) quotient = eval (withX ratInterp fun _ => 1) (fun _ => 0) raw := by rw [← h]
  rw [raw_eq, eval_addE, xn, eval_x] at h1
  simp at h1

/-- The expansion that cancels everything that can be cancelled here. -/
def rwOps : Rewriter := ⟨fun e => if e = raw then exRhs else e, id⟩

theorem rwOps_ok : RwOk "n" rwOps where
  expand_eval := by
    intro K _ _ J ρ e
    simp only [rwOps]
    split_ifs with h
    · rw [h, raw_val]
    · rfl
  collect_eval := fun _ _ _ _ _ _ => rfl
  expand_idx := by
    intro e h
    simp only [rwOps]
    split_ifs
    · simp [CapstoneLinear.ex_form, idxNe]
    · exact h
  collect_idx := fun _ h => h

theorem ex_rewritten : exRhs = elimNegative "n" rwOps userRhs := by
  rw [elimNegative, ex_findMax]
  have h : elimNegative "n" rwOps userRhs = rwOps.expand (addE (rwOps.collect (rwOps.expand quotient)) (xn "n")) := by
    rw [elimNegative, ex_findMax]
    rfl
  have h2 : rwOps.expand quotient = quotient := if_neg quotient_ne
  have h3 : rwOps.collect quotient = quotient := rfl
  rw [elimNegative, ex_findMax] at h
  rw [h, h2, h3, ← raw_eq]
  exact (if_pos rfl).symm

/-- The library, for this recurrence. -/
noncomputable def engine : Engine := { CapstoneLinear.engine with classify := fun _ => (.success, ⟨.linConst, 2, 0, 0⟩, exRhs) }

theorem ex_shifted (ρ : String → ℚ) : Shifted ratInterp engine "n" 1000 rwOps ρ userRhs exRhs 2 where
  rw := rwOps_ok
  negative := ex_negative
  recorded := rfl
  rewritten := ex_rewritten
  shift := by rw [ex_findMax]; rfl
  idx := by simp [userRhs, idxNe]
  coeff := by
    intro X N _
    rw [ex_findMax]
    norm_num [eval]

/-- What the solver returns. -/
abbrev Ret : Expr → Prop := CapstoneLinear.Returned CapstoneLinear.engine exOps "n" exRhs exSt 0 exRoots none

theorem ex_sound (ρ : String → ℚ) : SoundLinear ratInterp (redirect engine userRhs) icOps "n" (fun _ => False) ρ exRhs
    (fun i _ => ((([0, 1, 2] : List ℚ).getD (i + 1) 0 : ℚ) : ℚ)) (fun _ => 2) Ret := by
  have h := CapstoneLinear.sound CapstoneLinear.ex_isLinear CapstoneLinear.ex_wired (CapstoneLinear.ex_assumed ρ)
  exact ⟨h.classified, h.ty, h.order, h.notB, h.linear, h.solve, h.rename, h.shape, h.fresh, h.solution, h.onIC, h.renameIC, h.lsolve, h.simp⟩

theorem ex_goodICs : GoodICs ratInterp (redirect engine userRhs) icOps "n" (fun _ => False) exRhs Ret [(0, .num 1), (1, .num 3)] := by
  have h := CapstoneLinear.ex_goodICs
  exact ⟨h.sorted, h.small, h.large, h.value, h.answered⟩

/-- The history: compute, give `x(0) = 5` and `x(1) = 7`, ask, then give `x(0) = 1` and `x(1) = 3` instead. -/
noncomputable def history : RecState :=
  ((((RecState.new userRhs).step engine .computeExact).step engine (.setICs [(0, .num 5), (1, .num 7)])).step engine .getExact).step engine
    (.setICs [(0, .num 1), (1, .num 3)])

theorem history_reach : RecReach engine userRhs history := .step _ (.step _ (.step _ (.step _ .new)))

theorem history_ics : history.ics = [(0, .num 1), (1, .num 3)] := by rfl

theorem history_answer : (query engine .exact history).2
    = some (engine.onIC exRhs ⟨.linConst, 2, 0, 0⟩ [(0, .num 1), (1, .num 3)] sol) := by rfl

/-- **C157**, a concrete case: all hypotheses hold for `x(n) = 1/2 x(n+2) - 1/2 x(n+1) - 1`; every sequence satisfying it from 0 on with `x(0) = 1`,
`x(1) = 3` has the values of the answer (and there is one). -/
theorem C157_nonvacuous (ρ : String → ℚ) : RecReach engine userRhs history ∧ ∃ v, (query engine .exact history).2 = some v ∧
    (∃ X : ℚ → ℚ, SolvesAt ratInterp "n" userRhs ρ X 0 ∧ X 0 = 1 ∧ X 1 = 3) ∧
    ∀ X : ℚ → ℚ, SolvesAt ratInterp "n" userRhs ρ X 0 → X 0 = 1 → X 1 = 3 → ∀ (N : ℕ) Y, eval (withX ratInterp Y) (update ρ "n" N) v = X N := by
  refine ⟨history_reach, _, history_answer, ?_⟩
  obtain ⟨j, -, hj, h⟩ := (C157_answer_is_solution (ex_shifted ρ) (ex_sound ρ) history_reach history_answer).2
    (by rw [history_ics]; simp) (by rw [history_ics]; exact ex_goodICs)
  have hj' : LastKeys history.ics 2 j := hj
  obtain rfl : j = 0 := hj'.unique (by omega) (by rw [history_ics]; constructor <;> simp [ICMap.keys]; omega)
  obtain ⟨⟨X, hX⟩, hv⟩ := h 0 (by simp [engine])
  refine ⟨⟨X, hX.1, ?_, ?_⟩, fun X hX h0 h1 N Y => hv X ⟨hX, ?_⟩ N (by omega) Y⟩
  · simpa [eval] using hX.2 (0, .num 1) (by rw [history_ics]; simp) (by omega)
  · simpa [eval] using hX.2 (1, .num 3) (by rw [history_ics]; simp) (by omega)
  · intro q hq _
    rw [history_ics] at hq
    simp only [List.mem_cons, List.not_mem_nil, or_false] at hq
    rcases hq with rfl | rfl
    · simpa [eval] using h0
    · simpa [eval] using h1

end Purrs.CapstoneNeg
