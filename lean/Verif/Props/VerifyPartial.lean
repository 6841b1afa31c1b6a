import Verif.Props.VerifyObj
import Verif.Props.VerifyWA
import Verif.Props.NonLinear

/-!
# C143: what `PARTIAL_PROVABLY_CORRECT` means
-/

set_option linter.unusedSectionVars false

namespace Purrs

open RecState
open Verify (Verdict Oracle yes verifyFiniteOrder verifyWA OracleOk RecOk Candidate CandidateInClass idOracle recOne xAt xDec
  recTwo twoN twoDiff oracleOf waSum)
open OrderRed (IsSolution SolvesAt withX RhsOk SolOk writeReduced comeBack modE)
open WeightedAvg (WA rewriteWA computeWA Regular SolvesWA x0ok)
open NonLinear (rewriteMul backSolution commonExponent xflat RealLog substX)
open Function (update)

/-! ## Where the verdict comes from -/

theorem yes_false_ne : yes false ≠ .partialCorrect := by decide

/-- Steps 3 and 4 do not give the verdict unless the order reduction was applied. -/
theorem steps_not_partial {R : Verify.Rec} {O : Oracle} (hred : R.reduced = none) (sol : Expr) :
    Verify.verifySolution R O sol false ≠ some .partialCorrect := by
  have hy : some (yes false) ≠ some Verdict.partialCorrect := by decide
  have h4 : ∀ w, Verify.step4 R O w false ≠ some .partialCorrect := by
    intro w
    unfold Verify.step4
    rw [hred]
    split_ifs <;> simp [yes]
  have h34 : ∀ co u w, Verify.steps34 R O co u w false ≠ some .partialCorrect := by
    intro co u w h
    unfold Verify.steps34 at h
    obtain ⟨ok, -, h⟩ := Option.bind_eq_some_iff.mp h
    split at h
    · simp at h
    · split at h
      · split at h <;> simp [yes] at h
      · split at h
        · obtain ⟨b, -, h⟩ := Option.bind_eq_some_iff.mp h
          split at h
          · exact hy h
          · exact h4 _ h
        · exact h4 _ h
  intro h
  unfold Verify.verifySolution at h
  dsimp only at h
  obtain ⟨co, -, h⟩ := Option.bind_eq_some_iff.mp h
  by_cases hc : (if R.ics = [] then Verify.validateSymbolic R O co (Verify.splitSolution R.n (decide (R.ics = [])) sol).1
      (Verify.splitSolution R.n (decide (R.ics = [])) sol).2
      else Verify.validateValues R O (Verify.splitSolution R.n (decide (R.ics = [])) sol).2) = true
  · rw [if_pos hc] at h
    exact h34 _ _ _ h
  · rw [if_neg hc] at h
    simp at h

/-- **C143**, linear recurrences: the verdict is given only when the order reduction was applied. -/
theorem C143_linear_only_reduced {R : Verify.Rec} {O : Oracle} {sol : Expr}
    (h : verifyFiniteOrder R O sol false = some .partialCorrect) : R.reduced ≠ none := by
  intro hred
  unfold verifyFiniteOrder at h
  rw [hred] at h
  split at h
  · simp at h
  · split at h
    · exact steps_not_partial hred sol h
    · exact steps_not_partial hred sol h

theorem verifyWA_not_partial (O : Oracle) (n h : String) (wa : WA) (ics : List (ℕ × Expr)) (sol : Expr) :
    verifyWA O n h wa ics sol ≠ .partialCorrect := by
  unfold verifyWA
  dsimp only
  split_ifs <;> simp

/-- **C143**, weighted averages and non-linear recurrences: the verdict is given only when the solution of the associated
recurrence was verified, and the solution itself could not be. -/
theorem C143_associated_verified {C : Checks} {s : RecState} (hty : s.info.ty = .weighted ∨ s.info.ty = .nonLinear)
    (hw : ∀ v, C.weighted s.rhs s.info s.ics v ≠ .partialCorrect)
    (hf : ∀ v, C.finite s.rhs s.info s.ics v false ≠ some .partialCorrect)
    (h : verifyExact C s false = .verdict .partialCorrect) :
    C.assoc s.rhs s.info = some .partialCorrect ∧
      (s.info.ty = .weighted → C.weighted s.rhs s.info s.ics s.subjectWeighted = .inconclusive) ∧
      (s.info.ty = .nonLinear → C.finite s.rhs s.info s.ics s.subjectFinite false = some .inconclusive) := by
  have of_inj : ∀ o, VResult.of o = .verdict .partialCorrect → o = some .partialCorrect := by
    intro o; cases o <;> simp [VResult.of]
  unfold verifyExact at h
  split at h
  · simp at h
  · rcases hty with hty | hty <;> rw [hty] at h <;> simp only at h <;> split at h
    · next h1 => exact ⟨of_inj _ h, fun _ => h1.1, fun h2 => absurd (hty.symm.trans h2) (by decide)⟩
    · exact absurd (by simpa using h) (hw _)
    · next h1 => exact ⟨of_inj _ h, fun h2 => absurd (hty.symm.trans h2) (by decide), fun _ => h1.1⟩
    · exact absurd (of_inj _ h) (hf _)

section
variable {K : Type} [Field K] [CharZero K] {I : Interp K} {R : Verify.Rec} {O : Oracle} {ρ : String → K} {a : ℕ → ℕ → K}

/-! ## Weighted averages -/

/-- **C143 (partial: as for C40 and C106), weighted averages.**  The verdict `PARTIAL_PROVABLY_CORRECT` means that the solution
of the associated first order recurrence is right; then the expression computed from it has the value of every sequence
satisfying the recurrence, at every index above the lower limit. -/
theorem C143_weighted_partial {C : Checks} {s : RecState} (hty : s.info.ty = .weighted)
    (hw : ∀ v, C.weighted s.rhs s.info s.ics v ≠ .partialCorrect)
    {n : String} {w g : Expr} {lower z : ℕ} {upperIsN : Bool} {wa : WA} {sol1 : Expr}
    (hwa : rewriteWA n upperIsN lower w g z = some wa)
    (hassoc : C.assoc s.rhs s.info = verifyFiniteOrder R O sol1 true)
    (hRn : R.n = n) (hRrhs : R.rhs = wa.rhsFirst) (hRf : R.first = 0) (hRo : R.order = 1) (hRi : R.ics = [])
    (hO : OracleOk I R O ρ) (hR : RecOk I R ρ a) (hs : Candidate n 0 1 sol1)
    (hcl : R.constCoeff = true → CandidateInClass I R O ρ sol1)
    (hr : Regular I n ρ w g lower upperIsN) (hm1 : wa.weight ≠ .num (-1))
    (hsol : ∀ r, r = substitute (.sym n) (.num ((lower : ℚ) + 1))
      (addE (mulE wa.origWeight (.fn .x [.num lower])) wa.origInhom) → x0ok n r sol1 = true)
    (hex : s.exact = some (computeWA n wa sol1))
    (h : verifyExact C s false = .verdict .partialCorrect) :
    IsSolution I n wa.rhsFirst ρ sol1 0 1 ∧
    ∀ v, s.exact = some v → ∀ X : K → K, SolvesWA I n ρ w g lower upperIsN X → ∀ N : ℕ, lower < N →
      eval (withX I X) (update ρ n N) v = X N := by
  have h1 : C.assoc s.rhs s.info = some .partialCorrect := by
    unfold verifyExact at h
    rw [if_neg (by rw [hex]; simp), hty] at h
    simp only at h
    split at h
    · cases ho : C.assoc s.rhs s.info with
      | none => rw [ho] at h; simp [VResult.of] at h
      | some u => rw [ho] at h; simp only [VResult.of, VResult.verdict.injEq] at h; rw [h]
    · exact absurd (by simpa using h) (hw _)
  rw [hassoc] at h1
  have h2 : IsSolution I n wa.rhsFirst ρ sol1 0 1 := by
    have := Verify.C40_solution_partial (p := true) hO hR hRi (by rw [hRn, hRf, hRo]; exact hs) hcl h1
    rwa [hRn, hRrhs, hRf, hRo] at this
  refine ⟨h2, fun v hv X hX N hN => ?_⟩
  obtain rfl := Option.some.inj (hex.symm.trans hv)
  exact WeightedAvg.C106_solution_partial hr hwa hm1 hsol h2 X hX N hN

/-! ## The order reduction -/

/-- **C143 (partial: as for C40 and C30), order reduction.**  The verdict means that the solution of the reduced recurrence is
right (here: for all remainders `m` of the division of `n` by `g`); then the expression obtained from it has the value of every
solution of the recurrence. -/
theorem C143_reduced_partial {R' : Verify.Rec} {sol sol' : Expr} {n r : String} (hnr : n ≠ r) (g : ℕ) (hg : g ≠ 0)
    (hmod : ∀ N : ℕ, I.fn .mod [(N : K), (g : K)] = ((N % g : ℕ) : K))
    (hrhs : RhsOk n r R.rhs) (hsol : SolOk n r sol')
    (hred : R.reduced = some fun p => verifyFiniteOrder R' O sol' p)
    (hord : R.order ≠ 0) (hcc : R.constCoeff = true) (hic : R.ics = [])
    (hRn : R'.n = n) (hRrhs : R'.rhs = (writeReduced n r g R.rhs).1) (hRi : R'.ics = [])
    {a : ℕ → ℕ → ℕ → K}
    (hO : ∀ m < g, OracleOk I R' O (update ρ r (m : K))) (hR : ∀ m < g, RecOk I R' (update ρ r (m : K)) (a m))
    (hs : Candidate R'.n R'.first R'.order sol')
    (hcl : ∀ m < g, R'.constCoeff = true → CandidateInClass I R' O (update ρ r (m : K)) sol')
    (h : verifyFiniteOrder R O sol false = some .partialCorrect) :
    (∀ m < g, IsSolution I n (writeReduced n r g R.rhs).1 (update ρ r (m : K)) sol' R'.first R'.order) ∧
    ∀ X : K → K, SolvesAt I n R.rhs ρ X (R'.first + g * R'.order) → ∀ N : ℕ, g * R'.first ≤ N →
      eval (withX I X) (update ρ n N) (comeBack n r (modE n g) g sol') = X N := by
  unfold verifyFiniteOrder at h
  rw [if_neg hord, if_pos ⟨hcc, hic⟩, hred] at h
  have h1 : verifyFiniteOrder R' O sol' true = some (yes true) := h
  have h2 : ∀ m < g, IsSolution I n (writeReduced n r g R.rhs).1 (update ρ r (m : K)) sol' R'.first R'.order := by
    intro m hm
    have := Verify.C40_solution_partial (hO m hm) (hR m hm) hRi hs (hcl m hm) h1
    rwa [hRn, hRrhs] at this
  exact ⟨h2, fun X hX N hN => OrderRed.C30_order_reduction_partial I hnr g hg hmod hrhs hsol _ _ ρ h2 X hX N hN⟩

end

/-! ## Non-linear recurrences -/

/-- **C143 (partial: as for C40 and C105), products.**  The verdict means that the solution of the associated linear recurrence
(`R`, whose right-hand side has the value of the one the rewriting gives) is right; then the expression obtained from it has the
value of every positive sequence satisfying the recurrence. -/
theorem C143_product_partial {I : Interp ℝ} (hI : RealLog I) {R : Verify.Rec} {O : Oracle} {a : ℕ → ℕ → ℝ} {C : Checks}
    {s : RecState} (hty : s.info.ty = .nonLinear) (hf : ∀ v, C.finite s.rhs s.info s.ics v false ≠ some .partialCorrect)
    (n : String) (ρ : String → ℝ) (l : List Expr) {sol : Expr} (hassoc : C.assoc s.rhs s.info = verifyFiniteOrder R O sol true)
    (hRn : R.n = n) (hRi : R.ics = [])
    (hRrhs : ∀ (Y : ℝ → ℝ) (N : ℕ), R.first + R.order ≤ N → eval (withX I Y) (update ρ n (N : ℝ)) R.rhs
      = eval (withX I Y) (update ρ n (N : ℝ)) (rewriteMul l).rhs)
    (hO : OracleOk I R O ρ) (hR : RecOk I R ρ a) (hs : Candidate n R.first R.order sol)
    (hcl : R.constCoeff = true → CandidateInClass I R O ρ sol)
    (hx : xflat (.mul l) = true) (hce : 0 < commonExponent l)
    (hpos : ∀ (Y : ℝ → ℝ) (N : ℕ), R.first + R.order ≤ N → ∀ f ∈ factors (substX (rewriteMul l).base .exponent (.mul l)),
      0 < eval (withX I Y) (update ρ n (N : ℝ)) f)
    (hsx : xflat sol = true) (hs0 : sol ≠ .num 0)
    (hex : s.exact = some (backSolution (rewriteMul l).base sol))
    (h : verifyExact C s false = .verdict .partialCorrect) :
    IsSolution I n (rewriteMul l).rhs ρ sol R.first R.order ∧
    ∀ v, s.exact = some v → ∀ X : ℝ → ℝ, (∀ t, 0 < X t) → SolvesAt I n (.mul l) ρ X (R.first + R.order) →
      ∀ N : ℕ, R.first ≤ N → eval (withX I X) (update ρ n (N : ℝ)) v = X N := by
  have h1 : C.assoc s.rhs s.info = some .partialCorrect := by
    unfold verifyExact at h
    rw [if_neg (by rw [hex]; simp), hty] at h
    simp only at h
    have of_inj : ∀ o, VResult.of o = .verdict .partialCorrect → o = some .partialCorrect := by
      intro o; cases o <;> simp [VResult.of]
    split at h
    · exact of_inj _ h
    · exact absurd (of_inj _ h) (hf _)
  rw [hassoc] at h1
  have h2 : IsSolution I n (rewriteMul l).rhs ρ sol R.first R.order := by
    have h3 := Verify.C40_solution_partial (p := true) hO hR hRi (by rw [hRn]; exact hs) hcl h1
    intro X hX N hN
    rw [hRn] at h3
    exact h3 X (fun M hM => by rw [hX M hM, hRrhs X M hM]) N hN
  refine ⟨h2, fun v hv X hX hsolve N hN => ?_⟩
  obtain rfl := Option.some.inj (hex.symm.trans hv)
  exact NonLinear.C105_product_partial hI n ρ l hx hce X hX _ _ hsolve hpos sol hsx hs0 h2 N hN

/-! ## A concrete case -/

/-- The object `x(n) = sum(k, 0, n - 1, x(k))`, solved. -/
def sumObj : RecState :=
  { RecState.new (.num 0) with
    cl := .success, info := ⟨.weighted, 1, 0, 0⟩, exact := some (computeWA "n" waSum (.mul [twoN, xAt 0])) }

/-- The checks: the solution is not simplified enough to be verified itself. -/
def sumChecks : Checks where
  finite := fun _ _ _ _ _ => none
  weighted := fun _ _ m v => verifyWA idOracle "n" "h" waSum m v
  assoc := fun _ _ => verifyFiniteOrder recTwo (oracleOf twoDiff (.num 0)) (.mul [twoN, xAt 0]) true
  bound := fun _ _ _ _ => .inconclusive

theorem sum_solution : computeWA "n" waSum (.mul [twoN, xAt 0])
    = .mul [.pow (.num 2) (.add [.num (-1), .sym "n"]), .fn .x [.num 0]] := by
  have h11 : ¬ (1 : ℚ) = -1 := by norm_num
  simp [computeWA, waSum, twoN, xAt, substitute, addE, mulE, WeightedAvg.shiftN, powE, h11]

theorem sum_inconclusive : verifyWA idOracle "n" "h" waSum [] (computeWA "n" waSum (.mul [twoN, xAt 0])) = .inconclusive := by
  have h11 : ¬ (1 : ℚ) = -1 := by norm_num
  have h1m : ¬ (-1 : ℚ) = 1 := by norm_num
  rw [sum_solution]
  unfold verifyWA
  simp [waSum, h11, h1m, idOracle, substitute, addE, mulE, subE, negE, powE, WeightedAvg.shiftN, Verify.getIC, Verify.maxIC, xAt]

/-- The hypotheses of `C143_weighted_partial` are met by `x(n) = sum(k, 0, n - 1, x(k))` with the associated recurrence
`x(n) = 2 x(n - 1)`; so `2^(n-1) x(0)` has the value of every solution. -/
theorem C143_nonvacuous (ρ : String → ℝ) : verifyExact sumChecks sumObj false = .verdict .partialCorrect ∧
    ∀ v, sumObj.exact = some v → ∀ X : ℝ → ℝ, SolvesWA (realInterp 0) "n" ρ (.num 1) (.num 0) 0 false X → ∀ N : ℕ, 0 < N →
      eval (withX (realInterp 0) X) (update ρ "n" (N : ℝ)) v = X N := by
  have h : verifyExact sumChecks sumObj false = .verdict .partialCorrect := by
    have e1 : sumObj.subjectWeighted = computeWA "n" waSum (.mul [twoN, xAt 0]) := rfl
    unfold verifyExact
    rw [if_neg (by simp [sumObj]), show sumObj.info.ty = .weighted from rfl]
    simp only [e1]
    rw [if_pos ⟨sum_inconclusive, trivial⟩]
    show VResult.of (verifyFiniteOrder recTwo (oracleOf twoDiff (.num 0)) (.mul [twoN, xAt 0]) true) = _
    rw [Verify.two_verdict 0 true]
    rfl
  obtain ⟨h1, h2, h3, h4, h5, h6⟩ := Verify.two_hypotheses ρ true
  refine ⟨h, (C143_weighted_partial (C := sumChecks) (s := sumObj) rfl (fun v => verifyWA_not_partial idOracle "n" "h" waSum [] v) Verify.waSum_eq rfl rfl ?_ rfl rfl
    h3 h1 h2 h4 (fun _ => h5) ?_ ?_ ?_ rfl h).2⟩
  · simp [recTwo, recOne, waSum, WeightedAvg.firstOrderRhs, xDec, substitute, addE, mulE, WeightedAvg.divE, powE, WeightedAvg.shiftN, subE, negE]
    norm_num
  · exact ⟨by simp [OrderRed.idxNe], by simp [OrderRed.idxNe], by simp [hasX], by simp [hasX], by simp, by simp [eval], by simp⟩
  · simp [waSum]; norm_num
  · intro r _; simp [twoN, xAt, x0ok]

end Purrs
