import Verif.Props.CapstoneWAEx

/-!
# C106 fails when the associated recurrence starts at 1: `x(n) = -1/n sum(k, 0, n-1, x(k))`

The associated recurrence `x(n) = (n-1)/(n+1) x(n-1)` has a coefficient that vanishes at 1, so its first valid index is 1 and its solution
`2 x(1)/(n(n+1))` contains `x(1)`; src/Recurrence.cc:698-745 only replaces `x(0)`.
-/

set_option linter.unusedSectionVars false

namespace Purrs.WeightedFirst

open Finset
open Function (update update_of_ne update_self)
open OrderRed (withX eval_noX SolvesAt IsSolution idxNe)
open SolveLin (solveLinear)
open FirstIndex (firstIndex)
open WeightedAvg (WA upperStep rewriteWA computeWA Regular SolvesWA divE firstOrderRhs)
open CapstoneWA (inv inv_val inv1 inv1_val SameRhs)
open Bounds (val)

/-- The weight `-1/n`. -/
def wM : Expr := .mul [.num (-1), inv]

/-- What is stored. -/
def waM : WA := ⟨wM, .num 0, wM, .num 0, 0, false, firstOrderRhs "n" wM (.num 0), 0⟩

theorem rewriteM : rewriteWA "n" false 0 wM (.num 0) 0 = some waM := by
  simp [rewriteWA, upperStep, waM]

theorem wM_val (X : ℝ → ℝ) (σ : String → ℝ) : eval (withX (realInterp 0) X) σ wM = -(σ "n")⁻¹ := by
  simp only [wM, eval, List.map_cons, List.map_nil, List.prod_cons, List.prod_nil, inv_val]
  push_cast
  ring

theorem regularM (ρ : String → ℝ) : Regular (realInterp 0) "n" ρ wM (.num 0) 0 false where
  idxw := by simp [idxNe, wM, inv]
  idxg := by simp [idxNe]
  xw := by simp [hasX, wM, inv]
  xg := by simp [hasX]
  one := by simp
  ne0 := by
    intro X N hN
    rw [wM_val, update_self]
    have : (N : ℝ) ≠ 0 := by positivity
    simpa using this
  ne1 := by simp

/-- `n - 1`. -/
def nm1 : Expr := .add [.sym "n", .num (-1)]

/-- The right-hand side of the associated recurrence, simplified: `(n-1)/(n+1) x(n-1)`. -/
def rhsM : Expr := .mul [nm1, inv1, .fn .x [nm1]]

theorem nm1_val (X : ℝ → ℝ) (σ : String → ℝ) : eval (withX (realInterp 0) X) σ nm1 = σ "n" - 1 := by
  simp only [nm1, eval, List.map_cons, List.map_nil, List.sum_cons, List.sum_nil]
  push_cast
  ring

theorem rhsM_val (X : ℝ → ℝ) (ρ : String → ℝ) (N : ℕ) :
    eval (withX (realInterp 0) X) (update ρ "n" (N : ℝ)) rhsM = ((N : ℝ) - 1) / (N + 1) * X ((N : ℝ) - 1) := by
  have hx : eval (withX (realInterp 0) X) (update ρ "n" (N : ℝ)) (.fn .x [nm1]) = X ((N : ℝ) - 1) := by
    simp only [eval, List.map_cons, List.map_nil, nm1_val, update_self]
    rfl
  simp only [rhsM, eval, List.map_cons, List.map_nil, List.prod_cons, List.prod_nil, nm1_val, inv1_val, update_self] at hx ⊢
  rw [hx]
  ring

theorem sameM (ρ : String → ℝ) : SameRhs "n" ρ waM rhsM := by
  intro X N hN
  show _ = eval _ _ (firstOrderRhs "n" wM (.num 0))
  rw [WeightedAvg.eval_firstOrderRhs _ (by simp [idxNe, wM, inv]) (by simp [idxNe]), rhsM_val]
  simp only [wM_val, update_self]
  have hN' : (N : ℝ) ≠ 0 := by positivity
  have h1 : (N : ℝ) + 1 ≠ 0 := by positivity
  have hx2 : (withX (realInterp 0) X).fn .x [(N : ℝ) - 1] = X ((N : ℝ) - 1) := rfl
  rw [hx2]
  simp only [eval]
  push_cast
  field_simp
  ring

/-- What the classification of the associated recurrence finds. -/
def stM : Classify.St := ⟨.linVar, .num 0, 1, [.num 0, .mul [inv1, nm1]], 1, []⟩

theorem classifyM : Classify.classify "n" 1000 rhsM = .ok stM := by
  have d1 := Classify.getDecrement_mk "n" (-1) (by norm_num)
  have o1 : Classify.computeOrder 1000 (- -1) 0 = .ok (1, 1) := by rfl
  have h1 : Classify.summand "n" 1000 0 (.mul [nm1, inv1, .fn .x [.add [.sym "n", .num (-1)]]]) Classify.initSt = .ok stM := by
    have hl : Classify.findNonLinear "n" (.mul [nm1, inv1, .fn .x [.add [.sym "n", .num (-1)]]]) = .linear := by
      simp [Classify.findNonLinear, Classify.kindOf, Classify.nlStep, hasXOf, Classify.isXn, nm1, inv1]
      try (split <;> simp)
    simp only [Classify.summand, hl, Classify.product, List.foldr_cons, List.foldr_nil, Classify.factorStep, Classify.factorX, d1, o1, Classify.initSt]
    simp [has, hasParameters, Classify.isAdd2, Classify.newGcd, Classify.insertCoeff, Classify.isWeightedSum,
      Classify.finishProduct, mulE, nm1, inv1, stM]
  have : rhsM = .mul [nm1, inv1, .fn .x [.add [.sym "n", .num (-1)]]] := rfl
  rw [this]
  simp only [Classify.classify, addends, Classify.loopFrom, h1]

/-- Numerators, denominators and roots. -/
def envM : Functional.Env where
  num := fun e => if e = .mul [inv1, nm1] then nm1 else e
  den := fun e => if e = .mul [inv1, nm1] then .add [.sym "n", .num 1] else .num 1
  roots := fun e => if e = nm1 then some [1] else some [-1]

theorem firstM (fuel : ℕ) : firstIndex envM (fun _ => .num 1) "n" (fuel + 1) stM = some 1 := by
  have e1 : envM.num (.mul [inv1, nm1]) = nm1 := by simp [envM]
  have e2 : envM.den (.mul [inv1, nm1]) = .add [.sym "n", .num 1] := by simp [envM]
  have r1 : envM.roots nm1 = some [1] := by simp [envM]
  have r2 : envM.roots (.add [.sym "n", .num 1]) = some [-1] := by simp [envM, nm1]
  have d1 : Functional.exDom envM "n" (fuel + 1) nm1 0 = (true, 1) := by
    have : Functional.polyDom envM "n" nm1 0 = 1 := by
      unfold Functional.polyDom
      rw [r1]
      simp [nm1, isRatPolynomial, isRatScalarRep, Functional.raise]
    simp [Functional.exDom, nm1, has, isPolynomial, isScalarRep] at this ⊢
    exact this
  have d2 : Functional.exDom envM "n" (fuel + 1) (.add [.sym "n", .num 1]) 1 = (true, 1) := by
    have : Functional.polyDom envM "n" (.add [.sym "n", .num 1]) 1 = 1 := by
      unfold Functional.polyDom
      rw [r2]
      simp [isRatPolynomial, isRatScalarRep, Functional.raise]
      exact Int.ceil_le.mpr (by norm_num)
    simp [Functional.exDom, has, isPolynomial, isScalarRep] at this ⊢
    exact this
  have hd : Functional.findDomain envM "n" (fuel + 1) (.mul [inv1, nm1]) 0 = (true, 1) := by
    unfold Functional.findDomain Functional.bothDom
    rw [e1, d1]
    simp only [if_true]
    rw [e2, d2]
  have hp : hasParameters "n" (.mul [inv1, nm1]) = false := by simp [hasParameters, inv1, nm1]
  simp [firstIndex, FirstIndex.inhomDom, FirstIndex.coeffDom, stM, hp, hd]

/-- The solution of the associated recurrence: `2/(n(n+1)) x(1)`. -/
def solM : Expr := .mul [.num 2, inv, inv1, .fn .x [.num 1]]

/-- Simplifications, with the right product and the right sum. -/
def linM : SolveLin.Ops := { CapstoneWA.linQ with product := fun _ _ => .mul [.num 2, inv, inv1], sumOrder1 := fun _ _ => .num 0 }

theorem solveM : solveLinear linM "n" rhsM (.num 0) 1 1 false (.mul [inv1, nm1]) none none = some solM := by
  rfl

theorem solutionM (ρ : String → ℝ) : IsSolution (realInterp 0) "n" waM.rhsFirst ρ solM 1 1 := by
  intro X hX N hN
  have hv : ∀ N : ℕ, eval (withX (realInterp 0) X) (update ρ "n" (N : ℝ)) solM = 2 / ((N : ℝ) * (N + 1)) * X 1 := by
    intro N
    have hx : eval (withX (realInterp 0) X) (update ρ "n" (N : ℝ)) (.fn .x [.num 1]) = X 1 := by
      simp [eval, withX]
    simp only [solM, eval, List.map_cons, List.map_nil, List.prod_cons, List.prod_nil, inv_val, inv1_val, update_self] at hx ⊢
    rw [hx]
    push_cast
    field_simp
  rw [hv]
  induction N, hN using Nat.le_induction with
  | base => norm_num
  | succ N hN ih =>
    have h := hX (N + 1) (by omega)
    rw [← sameM ρ X (N + 1) (by omega), rhsM_val] at h
    rw [h]
    have e1 : ((N + 1 : ℕ) : ℝ) - 1 = N := by push_cast; ring
    rw [e1, ← ih]
    have h0 : (N : ℝ) ≠ 0 := by positivity
    push_cast
    field_simp

/-- The sequence `1, -1, 0, 0, …`. -/
noncomputable def XM (t : ℝ) : ℝ := if t = 0 then 1 else if t = 1 then -1 else 0

theorem solvesM (ρ : String → ℝ) : SolvesWA (realInterp 0) "n" ρ wM (.num 0) 0 false XM := by
  have hs : ∀ M : ℕ, ∑ k ∈ Icc 0 (M + 1), XM (k : ℝ) = 0 := by
    intro M
    induction M with
    | zero => simp [Finset.sum_Icc_succ_top, XM]
    | succ M ih =>
      rw [Finset.sum_Icc_succ_top (by omega), ih]
      have h1 : ((M + 1 + 1 : ℕ) : ℝ) ≠ 0 := by positivity
      have h2 : ((M + 1 + 1 : ℕ) : ℝ) ≠ 1 := by
        have : (0 : ℝ) ≤ M := by positivity
        push_cast
        linarith
      simp only [XM, if_neg h1, if_neg h2, add_zero]
  intro N hN
  unfold WeightedAvg.WAAt
  simp only [wM_val, update_self, Bool.false_eq_true, if_false, eval]
  rcases Nat.lt_or_ge N 2 with h | h
  · obtain rfl : N = 1 := by omega
    simp [XM]
  · obtain ⟨M, rfl⟩ : ∃ M, N = M + 2 := ⟨N - 2, by omega⟩
    rw [show M + 2 - 1 = M + 1 by omega, hs]
    have h1 : ((M + 2 : ℕ) : ℝ) ≠ 0 := by positivity
    have h2 : ((M + 2 : ℕ) : ℝ) ≠ 1 := by
      have : (0 : ℝ) ≤ M := by positivity
      push_cast; linarith
    rw [XM, if_neg h1, if_neg h2]
    simp

/-- **C106** fails when the associated recurrence has not the first valid index 0.  `x(n) = -1/n sum(k, 0, n-1, x(k))` is regular; the associated recurrence,
simplified, is `x(n) = (n-1)/(n+1) x(n-1)`, classified with first valid index 1 and solved right, `2 x(1)/(n(n+1))`.  The answer for the weighted average, `2
x(1)/((n-1)n)`, has at 2 not the value of the sequence `1, -1, 0, 0, …`, which satisfies the recurrence. -/
theorem C106_first_index_refuted (ρ : String → ℝ) (fuel : ℕ) : ∃ (wa : WA) (rhs1 sol1 : Expr) (st : Classify.St) (X : ℝ → ℝ),
    Regular (realInterp 0) "n" ρ wM (.num 0) 0 false ∧ rewriteWA "n" false 0 wM (.num 0) 0 = some wa ∧ wa.weight ≠ .num (-1) ∧
    SameRhs "n" ρ wa rhs1 ∧ Classify.classify "n" 1000 rhs1 = .ok st ∧ firstIndex envM (fun _ => .num 1) "n" (fuel + 1) st = some 1 ∧
    solveLinear linM "n" rhs1 st.inhom 1 1 false (st.coeffs.getD 1 (.num 0)) none none = some sol1 ∧
    IsSolution (realInterp 0) "n" wa.rhsFirst ρ sol1 1 1 ∧ SolvesWA (realInterp 0) "n" ρ wM (.num 0) 0 false X ∧
    eval (withX (realInterp 0) X) (update ρ "n" ((2 : ℕ) : ℝ)) (computeWA "n" wa sol1) ≠ X ((2 : ℕ) : ℝ) := by
  refine ⟨waM, rhsM, solM, stM, XM, regularM ρ, rewriteM, by simp [waM, wM], sameM ρ, classifyM, firstM fuel, solveM, solutionM ρ, solvesM ρ, ?_⟩
  have e1 : computeWA "n" waM solM = substitute (.fn .x [.num 0]) (substitute (.sym "n") (.num ((0 : ℕ) + 1)) (addE (mulE wM (.fn .x [.num ((0 : ℕ) : ℚ)])) (.num 0)))
      (substitute (.sym "n") (WeightedAvg.shiftN "n" (-1 - ((0 : ℕ) : ℚ))) solM) := by
    simp [computeWA, waM, wM]
  have e2 : XM ((2 : ℕ) : ℝ) = 0 := by norm_num [XM]
  have e3 : ∀ r, eval (withX (realInterp 0) XM) (update ρ "n" ((2 : ℕ) : ℝ))
      (substitute (.fn .x [.num 0]) r (substitute (.sym "n") (WeightedAvg.shiftN "n" (-1 - ((0 : ℕ) : ℚ))) solM)) = -1 := by
    intro r
    have e4 : substitute (.fn .x [.num 0]) r (substitute (.sym "n") (WeightedAvg.shiftN "n" (-1 - ((0 : ℕ) : ℚ))) solM) =
        .mul [.num 2, .pow (.add [.num (-1), .sym "n"]) (.num (-1)), .pow (.add [.num (-1), .sym "n", .num 1]) (.num (-1)), .fn .x [.num 1]] := by
      simp [solM, substitute, WeightedAvg.shiftN, inv, inv1, addE, mulE, powE, show ¬ (-1 : ℚ) = 1 by norm_num]
    rw [e4]
    have hp : ∀ t : ℝ, (withX (realInterp 0) XM).pw t ((-1 : ℚ) : ℝ) = t⁻¹ := by
      intro t
      rw [show ((-1 : ℚ) : ℝ) = ((-1 : ℤ) : ℝ) by push_cast; rfl, (withX (realInterp 0) XM).pw_int, zpow_neg_one]
    have hx1 : eval (withX (realInterp 0) XM) (update ρ "n" ((2 : ℕ) : ℝ)) (.fn .x [.num 1]) = -1 := by simp [eval, withX, XM]
    simp only [eval, List.map_cons, List.map_nil, List.prod_cons, List.prod_nil, List.sum_cons, List.sum_nil, update_self, hp] at hx1 ⊢
    rw [hx1]
    norm_num
  rw [e1, e3, e2]
  norm_num

end Purrs.WeightedFirst
