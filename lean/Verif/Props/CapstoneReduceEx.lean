import Verif.Props.CapstoneReduce
import Verif.Props.SolveLinearEx

/-!
# A case meeting the hypotheses of C149: `x(n) = x(n-2) + 1`
-/

set_option linter.unusedSectionVars false

namespace Purrs.CapstoneReduce

open Function (update update_of_ne update_self)
open OrderRed (withX eval_noX SolvesAt IsSolution SolOk RhsOk TermOk FactorOk rewriteFactor rewriteTerm writeReduced residue comeBack modE)
open Classify (St classify)
open OnIC (Shape)
open SolveLin (Agrees Denotes Keeps KeepsX Unknown OpsOk RecIs TermIs TermSolved RootsAre ICs solveLinear decomposition multOf exU)
open Polynomial Purrs.Exact

/-- `x(n-2) + 1`. -/
def exRhs : Expr := .add [.fn .x [.add [.sym "n", .num (-2)]], .num 1]

/-- What the classification finds. -/
def exSt : St := ⟨.linConst, .num 1, 2, [.num 0, .num 0, .num 1], 2, []⟩

theorem ex_classify : classify "n" 1000 exRhs = .ok exSt := by
  have d2 := Classify.getDecrement_mk "n" (-2) (by norm_num)
  have o2 : Classify.computeOrder 1000 (- -2) 0 = .ok (2, 2) := by rfl
  have h1 : Classify.summand "n" 1000 0 (.fn .x [.add [.sym "n", .num (-2)]]) Classify.initSt
      = .ok ⟨.linConst, .num 0, 2, [.num 0, .num 0, .num 1], 2, []⟩ := by
    simp only [Classify.summand, Classify.findNonLinear, Classify.kindOf, Classify.single, Classify.singleX, d2, Classify.initSt, o2]
    simp [hasXOf, has, hasParameters, Classify.isAdd2, Classify.St.fresh, Classify.newGcd, Classify.insertCoeff]
  have h3 : Classify.summand "n" 1000 1 (.num 1) ⟨.linConst, .num 0, 2, [.num 0, .num 0, .num 1], 2, []⟩ = .ok exSt := by
    simp [Classify.summand, Classify.findNonLinear, Classify.kindOf, Classify.single, Classify.isWeightedSum, Classify.addInhom, addE, exSt]
  simp only [exRhs, Classify.classify, addends, Classify.loopFrom, h1, h3]

theorem ex_reducible : Reducible "n" "r" 1000 exRhs exSt [0, 0, 1] 2 where
  ok := ex_classify
  ty := rfl
  coeffs := rfl
  last := by simp [exSt]
  nonzero := by
    have d2 := Classify.getDecrement_mk "n" (-2) (by norm_num)
    simp [exRhs, Classify.decrements, addends, factors, Classify.xDecr, d2]
  gcd := rfl
  two := le_rfl
  noX := by
    have d2 := Classify.getDecrement_mk "n" (-2) (by norm_num)
    intro a ha
    simp only [exRhs, addends, List.mem_cons, List.not_mem_nil, or_false] at ha
    rcases ha with rfl | rfl
    · right
      simp [factors, Classify.xDecr, d2]
    · left
      simp [hasX]
  rhs := by
    simp only [exRhs, RhsOk]
    refine ⟨by simp, fun a ha => ?_⟩
    simp only [List.mem_cons, List.not_mem_nil, or_false] at ha
    rcases ha with rfl | rfl
    · exact .x1 (-2)
    · exact .num 1

/-- The reduced recurrence: `x(n) = x(n-1) + 1`. -/
theorem ex_reduced : writeReduced "n" "r" 2 exRhs = (.add [.num 1, .fn .x [.add [.sym "n", .num (-1)]]], .num 1) := by
  simp [exRhs, writeReduced, rewriteTerm, rewriteFactor, OrderRed.xDecrement, addE, hasXOf, has]

/-- Simplifications that change nothing; the sum of the constant 1 from 0 to `n` is `n + 1`. -/
def exOps : SolveLin.Ops where
  expand := id
  epSimp := id
  simp := id
  auto := fun _ => Verify.xDec "n" 1
  degree := fun _ => 0
  coeff := fun _ _ => .num 0
  lsolve := fun _ _ => none
  sumPoly := fun _ => addE (.sym "n") (.num 1)
  unknown := fun _ i => exU i
  rw := id
  collect := fun _ e => e
  product := fun _ e => e
  sumOrder1 := fun _ e => e

theorem keeps_id {I : Interp ℝ} {n : String} {U : String → Prop} {ρ : String → ℝ} {f : ℕ} {B : String → Prop} : Keeps I n U ρ f B id :=
  ⟨fun _ _ _ _ _ _ _ _ => rfl, fun _ h _ => h, fun _ _ h => h, fun _ h => h⟩

theorem keepsX_id {I : Interp ℝ} {n : String} {ρ : String → ℝ} {f : ℕ} {B : String → Prop} {S : ℚ → Prop} : KeepsX I n ρ f B S id :=
  ⟨fun _ _ _ _ _ => rfl, fun _ h => h⟩

theorem ex_opsOk (ρ : String → ℝ) (f k : ℕ) : OpsOk (realInterp 0) exOps "n" (fun _ => False) ρ f k where
  expand := keeps_id
  simp := keeps_id
  epSimp := keeps_id
  rw := keepsX_id
  collect := fun _ => keepsX_id
  notB := by simp
  nB := by simp
  ne := fun _ i => SolveLin.exU_ne i
  inj := fun _ => SolveLin.exU_inj
  lsolve := fun S eqs m j vals _ h => by cases h

theorem exU_ne_r (i : ℕ) : exU i ≠ "r" := by
  intro h
  have h1 := congrArg String.toList h
  rw [exU, String.toList_ofList] at h1
  have := congrArg List.length h1
  simp at this

theorem ex_decomposition : decomposition exOps "n" (.num 1) = [(.num 1, .num 1, .num 0)] := by
  show expPolyDecomposition "n" (.num 1) = _
  have h : isolatePolynomialPart "n" (.num 1) = (.num 1, .num 0) := by
    simp [isolatePolynomialPart, isPolynomial, isScalarRep]
  simp only [expPolyDecomposition, epSummand, epBase, epFactor, bumpLast, h, List.nil_append]
  simp [addE]

theorem ex_assumed (ρ : String → ℝ) : Assumed (realInterp 0) exOps "n" "r" (fun _ => False) ρ exRhs exSt [0, 0, 1] 2 0 [(.num 1, 1)]
    (fun _ => 1) (fun _ => 1) (fun _ _ => 1) (fun _ _ => C 1) where
  ne := by decide
  new := by
    rintro ⟨j, i, h⟩
    exact exU_ne_r i h.symm
  notB := by simp
  mod := OrderRed.real_mod 2
  ops := fun m _ => ex_opsOk _ _ _
  inhom := fun X σ N _ _ => by simp [exSt, eval]
  shape := by rw [ex_reduced]; simp [Shape]
  auto := by
    intro m _ X σ N hN hσ
    rw [ex_reduced]
    simp only
    rw [eval_subE]
    simp only [exOps, Verify.xDec, WeightedAvg.shiftN, addE]
    simp [eval]
  out := by
    show Verify.xOut "n" (List.range' 1 1) (Verify.xDec "n" 1) = true
    simp only [Verify.xDec, Verify.xOut, if_pos]
    rw [List.any_eq_true]
    exact ⟨1, by simp, by simp⟩
  rootsOk := by
    intro m _
    refine ⟨?_, by simp [Shape], ?_, by simp, by simp⟩
    · intro r hr X σ N _ _
      simp only [List.mem_singleton] at hr
      subst hr
      simp [eval]
    · unfold AreRoots charPoly
      simp
  terms := by
    intro m _ t ht
    rw [ex_reduced, ex_decomposition, List.mem_singleton] at ht
    subst ht
    exact ⟨one_ne_zero, fun X σ N _ _ => by simp [eval], fun X σ N _ _ => by simp [eval], by simp [exOps], by simp [Shape], by simp [Shape]⟩
  bases := by
    intro m _ t ht s hs
    rw [ex_reduced, ex_decomposition, List.mem_singleton] at ht
    simp only [List.mem_singleton] at hs
    subst ht hs
    simp [exOps]
  solved := by
    intro m _ t ht
    rw [ex_reduced, ex_decomposition, List.mem_singleton] at ht
    subst ht
    refine ⟨fun _ _ => ⟨?_, ?_⟩, fun h => absurd ⟨rfl, rfl⟩ h, fun h => absurd ⟨rfl, rfl⟩ h⟩
    · exact OnIC.shape_addE (a := .sym "n") (b := .num 1) (by simp [Shape]) (by simp [Shape])
    · intro X σ N _ hσ
      show eval _ _ (addE (.sym "n") (.num 1)) = _
      rw [eval_addE]
      simp [eval, hσ.1]
  noRest := by
    intro t ht
    rw [ex_reduced, ex_decomposition, List.mem_singleton] at ht
    subst ht
    rfl

/-- The solver returns an expression for the reduced recurrence. -/
theorem ex_answer : ∃ x, solveLinear exOps "n" (writeReduced "n" "r" 2 exRhs).1 (writeReduced "n" "r" 2 exRhs).2 0 ([(0 : ℚ), 0, 1].length / 2) true
    (.num ((OrderRed.newCoefficients 2 [(0 : ℚ), 0, 1]).getD 1 0)) (some [(.num 1, 1)]) none = some x := by
  rw [ex_reduced]
  show ∃ x, solveLinear exOps "n" _ _ 0 1 true _ _ _ = some x
  rw [solveLinear, if_neg (by norm_num), if_pos rfl, Option.bind_some, SolveLin.solveConst, ex_decomposition, if_neg (by simp)]
  exact ⟨_, rfl⟩

/-- The sequence 0, 0, 1, 1, 2, 2, … plus 5 at the even and 7 at the odd indices. -/
noncomputable def exX (t : ℝ) : ℝ := (⌊t⌋₊ / 2 : ℕ) + if ⌊t⌋₊ % 2 = 0 then 5 else 7

theorem ex_solves (ρ : String → ℝ) : SolvesAt (realInterp 0) "n" exRhs ρ exX (0 + exSt.order) := by
  intro N hN
  have hN : 2 ≤ N := by simpa [exSt] using hN
  obtain ⟨M, rfl⟩ := Nat.exists_eq_add_of_le hN
  have e1 : ((2 + M : ℕ) : ℝ) + -2 = (M : ℝ) := by push_cast; ring
  simp only [exRhs, eval, List.map_cons, List.map_nil, List.sum_cons, List.sum_nil]
  simp only [withX, update_self, Rat.cast_neg, Rat.cast_ofNat, Rat.cast_one, add_zero]
  rw [e1]
  simp only [exX, Nat.floor_natCast]
  rw [show (2 + M) / 2 = M / 2 + 1 by omega, show (2 + M) % 2 = M % 2 by omega]
  push_cast
  ring

/-- The hypotheses of `C149_order_reduction` are met by `x(n) = x(n-2) + 1`: the answer has, at 5, the value `7 + 2`. -/
theorem C149_nonvacuous (ρ : String → ℝ) : ∃ x, solveLinear exOps "n" (writeReduced "n" "r" 2 exRhs).1 (writeReduced "n" "r" 2 exRhs).2 0 1 true
    (.num ((OrderRed.newCoefficients 2 [(0 : ℚ), 0, 1]).getD 1 0)) (some [(.num 1, 1)]) none = some x ∧
    eval (withX (realInterp 0) exX) (update ρ "n" ((5 : ℕ) : ℝ)) (comeBack "n" "r" (modE "n" 2) 2 x) = 9 := by
  classical
  obtain ⟨x, hx⟩ := ex_answer
  refine ⟨x, hx, ?_⟩
  rw [C149_order_reduction ex_reducible (ex_assumed ρ) hx (ex_solves ρ) 5 (by norm_num)]
  simp only [exX, Nat.floor_natCast]
  norm_num

end Purrs.CapstoneReduce
