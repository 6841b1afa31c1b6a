import Verif.Props.Verify

/-!
# C40: an accepted right candidate and accepted wrong candidates
-/

set_option linter.unusedSectionVars false

namespace Purrs.Verify

open Purrs Purrs.OrderRed Purrs.WeightedAvg
open Function (update update_of_ne update_self update_comm)

/-- `x(n) = r(n)` of order 1 from `0` on. -/
def recOne (rhs : Expr) : Rec where
  n := "n"
  rhs := rhs
  inhom := .num 0
  order := 1
  first := 0
  gcd := 1
  ics := []
  linear := true
  constCoeff := true
  numExp := 1
  noPoly := false
  maxDeg := 0
  mults := some [1]
  reduced := none

/-- An oracle that knows that `lhs` expands to `rhs`. -/
def oracleOf (lhs rhs : Expr) : Oracle where
  simp := id
  simpSum := id
  computeSum := id
  rw := id
  expand := fun e => if e = lhs then rhs else e

theorem keeps_id (I : Interp ℝ) (n : String) (ρ : String → ℝ) (s : ℕ) : Keeps I n ρ s id :=
  ⟨fun _ _ _ _ _ _ => rfl, fun _ h _ => h, fun _ _ h => h⟩

theorem oracleOf_ok (I : Interp ℝ) {R : Rec} {ρ : String → ℝ} {l r : Expr}
    (hv : ∀ (X : ℝ → ℝ) (m : ℕ), R.first + R.order ≤ m →
      eval (withX I X) (update ρ R.n m) r = eval (withX I X) (update ρ R.n m) l)
    (hx : hasX r = false) (hi : idxNe R.n r = true) : OracleOk I R (oracleOf l r) ρ := by
  refine ⟨keeps_id .., keeps_id .., keeps_id .., ?_⟩
  refine ⟨fun X e _ _ m hm => ?_, fun e h _ => ?_, fun e _ h => ?_⟩ <;> simp only [oracleOf] <;> split_ifs with h1
  · rw [h1]; exact hv X m hm
  · rfl
  · exact hx
  · exact h
  · exact hi
  · exact h

/-- The verdict for a candidate made of one term. -/
theorem verdict_one {rhs sol c : Expr} {O : Oracle} (h1 : splitSolution "n" true sol = (sol, .num 0))
    (h2 : fillVector 1 0 1 sol = some [c]) (h3 : at' O "n" c 0 = .num 1) (h0 : at' O "n" (.num 0) 0 = .num 0)
    (h5 : newMethod (recOne rhs) O c false = some true) (p : Bool) : verifyFiniteOrder (recOne rhs) O sol p = some (yes p) := by
  have h6 : step3 (recOne rhs) O [c] sol = some true := by
    unfold step3
    simp only [show (recOne rhs).order / (recOne rhs).gcd = 1 by simp [recOne]]
    simp [show (recOne rhs).constCoeff = true from rfl, show (recOne rhs).mults = some [1] from rfl, h5]
  have h7 : validateSymbolic (recOne rhs) O [c] sol (.num 0) = true := by
    simp [validateSymbolic, recOne, h3, h0]
  unfold verifyFiniteOrder
  rw [if_neg (by simp [recOne])]
  have h8 : verifySolution (recOne rhs) O sol p = some (yes p) := by
    unfold verifySolution
    simp only [show (recOne rhs).n = "n" from rfl, show (recOne rhs).ics = [] from rfl, decide_true, h1]
    simp only [show (recOne rhs).linear = true from rfl, show (recOne rhs).gcd = 1 from rfl,
      show (recOne rhs).first = 0 from rfl,
      show (recOne rhs).order = 1 from rfl, and_self, if_true, h2, Option.bind_some, h7]
    unfold steps34
    rw [h6]
    simp [show (recOne rhs).inhom = .num 0 from rfl, show (recOne rhs).ics = [] from rfl]
  rw [h8, show (recOne rhs).reduced = none from rfl]
  split_ifs <;> rfl

/-- `c(n) = 2·4^n - 3·2^n + 2`. -/
def badCoeff : Expr := .add [.mul [.num 2, .pow (.num 4) (.sym "n")], .mul [.num (-3), .pow (.num 2) (.sym "n")], .num 2]

/-- `c(n) x(0)`. -/
def badSol : Expr := .mul [badCoeff, xAt 0]

/-- `c(n) - c(n - 1)`. -/
def badDiff : Expr := subE badCoeff (substitute (.sym "n") (shiftN "n" (-((1 : ℕ) : ℚ))) badCoeff)

/-- `3/2·4^n - 3/2·2^n`. -/
def badExpanded : Expr := .add [.mul [.num (3/2), .pow (.num 4) (.sym "n")], .mul [.num (-3/2), .pow (.num 2) (.sym "n")]]

/-- `x(n) = x(n - 1)`. -/
def recConst : Rec := recOne (xDec "n" 1)

theorem recConst_ok (ρ : String → ℝ) : RecOk (realInterp 0) recConst ρ (fun _ _ => 1) := by
  refine ⟨?_, by simp [recConst, recOne, hasX], by simp [recConst, recOne, idxNe], ?_, le_rfl, rfl, rfl, rfl⟩
  · simp [recConst, recOne, xDec, xOut]
  · intro Y m _
    simp only [recConst, recOne, xDec]
    rw [eval_x, eval_shiftN]
    simp [eval, sub_eq_add_neg]

theorem badOracle_ok (ρ : String → ℝ) : OracleOk (realInterp 0) recConst (oracleOf badDiff badExpanded) ρ := by
  refine oracleOf_ok _ (fun X m hm => ?_) (by simp [badExpanded, hasX]) (by simp [badExpanded, idxNe])
  have hm : 1 ≤ m := hm
  obtain ⟨k, rfl⟩ : ∃ k, m = k + 1 := ⟨m - 1, by omega⟩
  rw [badDiff, eval_subE, show recConst.n = "n" from rfl, eval_subst_shift _ (by simp [badCoeff, idxNe])]
  have e1 : (((k + 1 : ℕ) : ℝ) + ((-((1 : ℕ) : ℚ) : ℚ) : ℝ)) = (k : ℝ) := by push_cast; ring
  rw [e1]
  have p : ∀ (b : ℝ) (j : ℕ), (withX (realInterp 0) X).pw b (j : ℝ) = b ^ j := fun b j => pw_nat _ b j
  simp only [badExpanded, badCoeff, eval, List.map_cons, List.map_nil, List.sum_cons, List.sum_nil, List.prod_cons,
    List.prod_nil, update_self, p]
  push_cast
  ring

theorem bad_verdict : verifyFiniteOrder recConst (oracleOf badDiff badExpanded) badSol false = some .correct := by
  have h1 : splitSolution "n" true badSol = (badSol, .num 0) := by
    simp [splitSolution, badSol, badCoeff, hasOnlyIC, xAt, isICArg]
  have h2 : fillVector 1 0 1 badSol = some [badCoeff] := by
    simp [fillVector, badSol, badCoeff, xAt, xArg, mulE]
  have h3 : at' (oracleOf badDiff badExpanded) "n" badCoeff 0 = .num 1 := by
    simp [at', oracleOf, badCoeff, substitute, powE, mulE, addE]; norm_num
  have hr : subE recConst.rhs recConst.inhom = xDec "n" 1 := by
    simp [subE, negE, recConst, recOne, xDec, addE, mulE]
  have hh : has (xDec "n" 1) (xDec "n" 1) = true := by rw [has.eq_def]; simp
  have hs : ∀ r, subX (xDec "n" 1) r (xDec "n" 1) = r := by intro r; rw [subX.eq_def]; simp
  have h4 : newDiff recConst (oracleOf badDiff badExpanded) false badCoeff = badExpanded := by
    unfold newDiff
    simp only [Bool.false_eq_true, if_false, hr]
    have e1 : (List.range' 1 recConst.order).reverse = [1] := rfl
    rw [e1]
    simp only [substLoop, List.foldl, show recConst.n = "n" from rfl, hh, if_true, hs]
    simp [oracleOf, badDiff]
  have h5 : newMethod recConst (oracleOf badDiff badExpanded) badCoeff false = some true := by
    unfold newMethod
    simp only [h4]
    simp [recConst, recOne, maxMult, badExpanded, cells, cell, takePower, powerOfN, addAt, addE, testCells, oracleOf,
      substitute, powE, mulE]
    norm_num
  have h0 : at' (oracleOf badDiff badExpanded) "n" (.num 0) 0 = .num 0 := by simp [at', oracleOf, substitute]
  exact verdict_one h1 h2 h3 h0 h5 false

/-- **C40 is false of the code**: the new method checks as many values as there are characteristic roots and exponentials of the
inhomogeneous term, whatever the exponentials of the candidate are.  For `x(n) = x(n - 1)` the candidate
`(2·4^n - 3·2^n + 2) x(0)` is `PROVABLY_CORRECT` although at `n = 1` it is `4 x(0)`; all simplifications are correct. -/
theorem C40_new_method_refuted : ∃ (R : Rec) (O : Oracle) (sol : Expr) (a : ℕ → ℕ → ℝ), ∀ ρ : String → ℝ,
    OracleOk (realInterp 0) R O ρ ∧ RecOk (realInterp 0) R ρ a ∧ R.ics = [] ∧ Candidate R.n R.first R.order sol ∧
    verifyFiniteOrder R O sol false = some .correct ∧ ¬ IsSolution (realInterp 0) R.n R.rhs ρ sol R.first R.order := by
  refine ⟨recConst, _, badSol, _, fun ρ => ⟨badOracle_ok ρ, recConst_ok ρ, rfl, ?_, bad_verdict, fun h => ?_⟩⟩
  · exact .single (.mul [badCoeff] [] 0 Nat.one_pos (by
      intro c hc
      obtain rfl : c = badCoeff := by simpa using hc
      simp [badCoeff, hasX, idxNe]))
  · have h1 := h (fun _ => 1) (fun N _ => by
      simp only [recConst, recOne, xDec]
      rw [eval_x]) 1 (Nat.zero_le _)
    have p : ∀ (b : ℝ), (withX (realInterp 0) (fun _ : ℝ => (1 : ℝ))).pw b 1 = b := fun b => by
      simpa using pw_nat (withX (realInterp 0) (fun _ : ℝ => (1 : ℝ))) b 1
    simp [badSol, badCoeff, recConst, recOne, eval, xAt, withX] at h1
    simp [withX] at p
    norm_num [p] at h1

/-! ### One term: right and wrong index -/

/-- `x(n) = 2 x(n - 1)`. -/
def recTwo : Rec := recOne (.mul [.num 2, xDec "n" 1])

/-- `2^n`. -/
def twoN : Expr := .pow (.num 2) (.sym "n")

/-- `2^n - 2·2^(n-1)`. -/
def twoDiff : Expr := subE twoN (mulE (mulE (.num 1) (substitute (.sym "n") (shiftN "n" (-((1 : ℕ) : ℚ))) twoN)) (.num 2))

theorem recTwo_ok (ρ : String → ℝ) : RecOk (realInterp 0) recTwo ρ (fun _ _ => 2) := by
  refine ⟨?_, by simp [recTwo, recOne, hasX], by simp [recTwo, recOne, idxNe], ?_, le_rfl, rfl, rfl, rfl⟩
  · simp [recTwo, recOne, xDec, xOut]
  · intro Y m _
    simp only [recTwo, recOne, xDec]
    have e1 := eval_x (realInterp 0) Y (update ρ "n" (m : ℝ)) (shiftN "n" (-((1 : ℕ) : ℚ)))
    rw [eval_shiftN] at e1
    simp only [eval, List.map_cons, List.map_nil, List.prod_cons, List.prod_nil] at e1 ⊢
    rw [e1]
    simp [sub_eq_add_neg]

theorem twoOracle_ok (ρ : String → ℝ) : OracleOk (realInterp 0) recTwo (oracleOf twoDiff (.num 0)) ρ := by
  refine oracleOf_ok _ (fun X m hm => ?_) (by simp [hasX]) (by simp [idxNe])
  have hm : 1 ≤ m := hm
  obtain ⟨k, rfl⟩ : ∃ k, m = k + 1 := ⟨m - 1, by omega⟩
  rw [twoDiff, eval_subE, eval_mulE, eval_mulE, show recTwo.n = "n" from rfl, eval_subst_shift _ (by simp [twoN, idxNe])]
  have e1 : (((k + 1 : ℕ) : ℝ) + ((-((1 : ℕ) : ℚ) : ℚ) : ℝ)) = (k : ℝ) := by push_cast; ring
  rw [e1]
  have p : ∀ (b : ℝ) (j : ℕ), (withX (realInterp 0) X).pw b (j : ℝ) = b ^ j := fun b j => pw_nat _ b j
  simp only [twoN, eval, update_self, p]
  push_cast
  ring

theorem two_newDiff : newDiff recTwo (oracleOf twoDiff (.num 0)) false twoN = .num 0 := by
  have hr : subE recTwo.rhs recTwo.inhom = .mul [.num 2, xDec "n" 1] := by
    simp [subE, negE, recTwo, recOne, xDec, addE, mulE]
  have hh : has (xDec "n" 1) (.mul [.num 2, xDec "n" 1]) = true := by
    have : has (xDec "n" 1) (xDec "n" 1) = true := by rw [has.eq_def]; simp
    rw [has]; simp [this]
  have hs : ∀ r, subX (xDec "n" 1) r (.mul [.num 2, xDec "n" 1]) = mulE (mulE (.num 1) r) (.num 2) := by
    intro r
    have h1 : subX (xDec "n" 1) r (xDec "n" 1) = r := by rw [subX.eq_def]; simp
    have h2 : subX (xDec "n" 1) r (.num 2) = .num 2 := subX_keep (by simp [has, xDec])
    rw [subX, if_neg (by simp [xDec]), if_neg (by simp [hh])]
    simp [h1, h2]
  unfold newDiff
  simp only [Bool.false_eq_true, if_false, hr]
  have e1 : (List.range' 1 recTwo.order).reverse = [1] := rfl
  rw [e1]
  simp only [substLoop, List.foldl, show recTwo.n = "n" from rfl, hh, if_true, hs]
  simp [oracleOf, twoDiff]

theorem two_verdict (k : ℕ) (p : Bool) :
    verifyFiniteOrder recTwo (oracleOf twoDiff (.num 0)) (.mul [twoN, xAt k]) p = some (yes p) := by
  refine verdict_one (c := twoN) ?_ ?_ ?_ ?_ ?_ p
  · have h := hasOnlyIC_xAt "n" k
    simp [splitSolution, twoN, hasOnlyIC, h]
  · simp [fillVector, twoN, xAt, xArg, mulE]
  · simp [at', oracleOf, twoN, substitute, powE]
  · simp [at', oracleOf, substitute]
  · unfold newMethod
    have h := two_newDiff
    unfold recTwo at h
    simp [h]

theorem two_value (X : ℝ → ℝ) (ρ : String → ℝ) (k m : ℕ) :
    eval (withX (realInterp 0) X) (update ρ "n" (m : ℝ)) (.mul [twoN, xAt k]) = 2 ^ m * X k := by
  have p : (withX (realInterp 0) X).pw 2 (m : ℝ) = 2 ^ m := pw_nat _ _ m
  have e1 := eval_x (realInterp 0) X (update ρ "n" (m : ℝ)) (.num k)
  simp only [eval, twoN, xAt, List.map_cons, List.map_nil, List.prod_cons, List.prod_nil, update_self] at e1 ⊢
  rw [e1]
  push_cast
  rw [p, mul_one]

/-- The hypotheses of `C40_solution_partial` for the right solution `2^n x(0)` of `x(n) = 2 x(n - 1)`. -/
theorem two_hypotheses (ρ : String → ℝ) (p : Bool) : OracleOk (realInterp 0) recTwo (oracleOf twoDiff (.num 0)) ρ ∧
    RecOk (realInterp 0) recTwo ρ (fun _ _ => 2) ∧ recTwo.ics = [] ∧
    Candidate recTwo.n recTwo.first recTwo.order (.mul [twoN, xAt 0]) ∧
    CandidateInClass (realInterp 0) recTwo (oracleOf twoDiff (.num 0)) ρ (.mul [twoN, xAt 0]) ∧
    verifyFiniteOrder recTwo (oracleOf twoDiff (.num 0)) (.mul [twoN, xAt 0]) p = some (yes p) := by
  have h := hasOnlyIC_xAt "n" 0
  have hsp : splitSolution "n" true (.mul [twoN, xAt 0]) = (.mul [twoN, xAt 0], .num 0) := by
    simp [splitSolution, twoN, hasOnlyIC, h]
  have hf : fillVector 1 0 1 (.mul [twoN, xAt 0]) = some [twoN] := by
    simp [fillVector, twoN, xAt, xArg, mulE]
  refine ⟨twoOracle_ok ρ, recTwo_ok ρ, rfl, ?_, ⟨fun v hv j hj => ?_, ?_⟩, two_verdict 0 p⟩
  · exact .single (.mul [twoN] [] 0 Nat.one_pos (by
      intro c hc
      obtain rfl : c = twoN := by simpa using hc
      simp [twoN, hasX, idxNe]))
  · have hv : fillVector 1 0 1 (splitSolution "n" true (.mul [twoN, xAt 0])).1 = some v := hv
    rw [hsp, hf] at hv
    obtain rfl := (Option.some.inj hv).symm
    have hj : j < 1 := hj
    obtain rfl : j = 0 := by omega
    intro u hu c hc
    rw [show [twoN].getD 0 (.num 0) = twoN from rfl, two_newDiff] at hu
    have hu : u = [.num 0] := by
      simpa [cells, cell, addAt, addE, degOf, maxMult, recTwo, recOne, eq_comm] using hu
    subst hu
    obtain rfl : c = .num 0 := by simpa using hc
    exact ⟨fun _ => 0, fun _ => 0, fun r => by simp [valAt, eval]⟩
  · intro u hu c hc
    have hz : newDiff recTwo (oracleOf twoDiff (.num 0)) true (splitSolution recTwo.n (decide (recTwo.ics = [])) (.mul [twoN, xAt 0])).2
        = .num 0 := by
      rw [show splitSolution recTwo.n (decide (recTwo.ics = [])) (.mul [twoN, xAt 0]) = _ from hsp]
      have hh : has (xDec "n" 1) (.mul [.num 2, xDec "n" 1]) = true := by
        have : has (xDec "n" 1) (xDec "n" 1) = true := by rw [has.eq_def]; simp
        rw [has]; simp [this]
      have h1 : ∀ r, subX (xDec "n" 1) r (xDec "n" 1) = r := by intro r; rw [subX.eq_def]; simp
      have h2 : ∀ r, subX (xDec "n" 1) r (.num 2) = .num 2 := fun r => subX_keep (by simp [has, xDec])
      unfold newDiff
      have e1 : (List.range' 1 recTwo.order).reverse = [1] := rfl
      rw [e1]
      simp only [if_true, substLoop, List.foldl, show recTwo.n = "n" from rfl,
        show recTwo.rhs = .mul [.num 2, xDec "n" 1] from rfl, hh]
      rw [subX, if_neg (by simp [xDec]), if_neg (by simp [hh])]
      simp [h1, h2, substitute, mulE, subE, negE, addE, oracleOf]
    rw [hz] at hu
    have hu : u = [.num 0] := by
      simpa [cells, cell, addAt, addE, degOf, maxMult, recTwo, recOne, eq_comm] using hu
    subst hu
    obtain rfl : c = .num 0 := by simpa using hc
    exact ⟨fun _ => 0, fun _ => 0, fun r => by simp [valAt, eval]⟩

/-- **C40 is false of the code**: when the candidate is a single term the index of its initial condition is not looked at.  For
`x(n) = 2 x(n - 1)` the candidate `2^n x(7)` is `PROVABLY_CORRECT`. -/
theorem C40_index_refuted : ∃ (R : Rec) (O : Oracle) (sol : Expr) (a : ℕ → ℕ → ℝ), ∀ ρ : String → ℝ,
    OracleOk (realInterp 0) R O ρ ∧ RecOk (realInterp 0) R ρ a ∧ R.ics = [] ∧
    verifyFiniteOrder R O sol false = some .correct ∧ ¬ IsSolution (realInterp 0) R.n R.rhs ρ sol R.first R.order := by
  refine ⟨recTwo, _, .mul [twoN, xAt 7], _, fun ρ => ⟨twoOracle_ok ρ, recTwo_ok ρ, rfl, two_verdict 7 false, fun h => ?_⟩⟩
  have h1 := h (fun v => (2 : ℝ) ^ v) (fun N hN => by
    rw [(recTwo_ok ρ).lin _ N hN]
    have hN : 1 ≤ N := hN
    obtain ⟨k, rfl⟩ : ∃ k, N = k + 1 := ⟨N - 1, by omega⟩
    have e1 : (((k + 1 : ℕ) : ℝ) - ((1 : ℕ) : ℝ)) = (k : ℝ) := by push_cast; ring
    simp only [show recTwo.order = 1 from rfl, show recTwo.inhom = .num 0 from rfl, Finset.Icc_self, Finset.sum_singleton, e1,
      Real.rpow_natCast, eval]
    rw [pow_succ]; push_cast; ring) 0 (Nat.zero_le _)
  have h2 := two_value (fun v => (2 : ℝ) ^ v) ρ 7 0
  rw [show recTwo.n = "n" from rfl] at h1
  rw [h1] at h2
  norm_num at h2

/-! ### The reduced recurrence -/

/-- `x(n) = x(n - 2)` with `x(0) = 0`, `x(1) = 1`; the reduced recurrence `x(n) = x(n - 1)` is solved and verified. -/
def recTwoApart : Rec where
  n := "n"
  rhs := xDec "n" 2
  inhom := .num 0
  order := 2
  first := 0
  gcd := 2
  ics := [(0, .num 0), (1, .num 1)]
  linear := true
  constCoeff := true
  numExp := 1
  noPoly := false
  maxDeg := 0
  mults := some [1, 1]
  reduced := some fun _ => some .correct

/-- No simplification at all. -/
def idOracle : Oracle := ⟨id, id, id, id, id⟩

theorem apart_verdict : verifyFiniteOrder recTwoApart idOracle (.sym "n") false = some .correct := by
  have hr : subE recTwoApart.rhs recTwoApart.inhom = xDec "n" 2 := by
    simp [subE, negE, recTwoApart, xDec, addE, mulE]
  have hh : has (xDec "n" 2) (xDec "n" 2) = true := by rw [has.eq_def]; simp
  have hs : ∀ r, subX (xDec "n" 2) r (xDec "n" 2) = r := by intro r; rw [subX.eq_def]; simp
  have h12 : has (xDec "n" 1) (xDec "n" 2) = false := by
    have e1 : has (xDec "n" 1) (shiftN "n" (-((2 : ℕ) : ℚ))) = false := has_x_of_noX (hasX_shiftN _ _)
    have e2 : ¬ xDec "n" 2 = xDec "n" 1 := by
      simp [xDec, shiftN, addE]
    rw [has.eq_def]
    simp only [e2, decide_false, Bool.false_or]
    simp only [xDec] at e1 ⊢
    simp only [List.map_cons, List.map_nil, List.any_cons, List.any_nil, e1, id, Bool.or_false]
  have h10 : has (xDec "n" 1) (.num 0) = false := by simp [has, xDec]
  have h1n : has (xDec "n" 1) (shiftN "n" (-((2 : ℕ) : ℚ))) = false := has_x_of_noX (hasX_shiftN _ _)
  have e1 : (List.range' 1 recTwoApart.order).reverse = [2, 1] := rfl
  have hn : substitute (.sym "n") (shiftN "n" (-((2 : ℕ) : ℚ))) (.sym "n") = shiftN "n" (-((2 : ℕ) : ℚ)) := by simp [substitute]
  have hsub : subE (.sym "n") (shiftN "n" (-((2 : ℕ) : ℚ))) = .add [.sym "n", .mul [.num (-1), .add [.sym "n", .num (-2)]]] := by
    have : ¬ (-1 : ℚ) = 1 := by norm_num
    simp [subE, negE, shiftN, addE, mulE, this]
  have hz : newMethod recTwoApart idOracle (.num 0) false = some true := by
    have : newDiff recTwoApart idOracle false (.num 0) = .num 0 := by
      unfold newDiff
      simp only [Bool.false_eq_true, if_false, hr, e1]
      simp only [substLoop, List.foldl, show recTwoApart.n = "n" from rfl, hh, if_true, hs, substitute]
      simp [h10, subE, negE, addE, mulE, idOracle]
    unfold newMethod
    simp [this]
  have hn1 : newMethod recTwoApart idOracle (.sym "n") true = some false := by
    have : newDiff recTwoApart idOracle true (.sym "n") = .add [.sym "n", .mul [.num (-1), .add [.sym "n", .num (-2)]]] := by
      unfold newDiff
      simp only [if_true, e1, show recTwoApart.rhs = xDec "n" 2 from rfl]
      simp only [substLoop, List.foldl, show recTwoApart.n = "n" from rfl, hh, if_true, hs, hn, h1n, Bool.false_eq_true,
        if_false, hsub]
      rfl
    unfold newMethod
    simp only [this]
    simp [recTwoApart, maxMult, cells, cell, takePower, powerOfN, addAt, addE, testCells, idOracle, substitute, mulE]
    exact ⟨0, by omega⟩
  have hres : residual recTwoApart idOracle recTwoApart.rhs (.sym "n") ≠ .num 0 := by
    unfold residual
    rw [show List.range' 1 recTwoApart.order = [1, 2] from rfl, show recTwoApart.rhs = xDec "n" 2 from rfl]
    simp only [substLoop, List.foldl, show recTwoApart.n = "n" from rfl, h12, hh, if_true, hs, Bool.false_eq_true, if_false]
    simp only [shiftSimp, idOracle, id, hn, show recTwoApart.n = "n" from rfl, hsub]
    simp
  have h3 : step3 recTwoApart idOracle [.num 0, .num 0] (.num 0) = some true := by
    unfold step3
    simp only [show recTwoApart.order / recTwoApart.gcd = 1 by simp [recTwoApart]]
    simp [show recTwoApart.constCoeff = true from rfl, show recTwoApart.mults = some [1, 1] from rfl, hz]
  have hv : validateValues recTwoApart idOracle (.sym "n") = true := by
    simp [validateValues, recTwoApart, maxIC, at', idOracle, substitute, getIC, List.range_succ, List.lookup]
  unfold verifyFiniteOrder
  rw [if_neg (by simp [recTwoApart]), if_neg (by simp [recTwoApart])]
  unfold verifySolution
  have hic : ¬ recTwoApart.ics = [] := by simp [recTwoApart]
  have hsp : splitSolution recTwoApart.n (decide (recTwoApart.ics = [])) (.sym "n") = (.num 0, .sym "n") := by
    simp [splitSolution, hic]
  rw [hsp]
  simp only [hic, and_false, if_false, Option.bind_some, hv, if_true]
  rw [show List.replicate recTwoApart.order (Expr.num 0) = [.num 0, .num 0] from rfl]
  unfold steps34
  rw [h3]
  simp only [Option.bind_some, hic, false_and, if_false, Bool.not_true, Bool.false_eq_true,
    show recTwoApart.constCoeff = true from rfl, if_true, hn1]
  unfold step4
  rw [if_neg hres]
  rfl

/-- **C40 is false of the code**: when the order was reduced and the candidate does not satisfy the recurrence, the answer is
that for the reduced recurrence, whose solution is computed again and has nothing to do with the candidate.  For
`x(n) = x(n - 2)`, `x(0) = 0`, `x(1) = 1` the candidate `n` is `PROVABLY_CORRECT`. -/
theorem C40_reduction_refuted : ∃ (R : Rec) (O : Oracle) (sol : Expr) (X : ℝ → ℝ), ∀ ρ : String → ℝ,
    OracleOk (realInterp 0) R O ρ ∧ verifyFiniteOrder R O sol false = some .correct ∧
    SolvesAt (realInterp 0) R.n R.rhs ρ X (R.first + R.order) ∧ R.ics = [(0, .num 0), (1, .num 1)] ∧ X 0 = 0 ∧ X 1 = 1 ∧
    eval (withX (realInterp 0) X) (update ρ R.n ((2 : ℕ) : ℝ)) sol ≠ X 2 := by
  classical
  refine ⟨recTwoApart, idOracle, .sym "n", fun v => if ∃ k : ℤ, v = 2 * k + 1 then 1 else 0, fun ρ =>
    ⟨⟨keeps_id .., keeps_id .., keeps_id .., keeps_id ..⟩, apart_verdict, ?_, rfl, ?_, ?_, ?_⟩⟩
  · intro N _
    simp only [recTwoApart, xDec]
    rw [eval_x, eval_shiftN, update_self]
    have : (∃ k : ℤ, (N : ℝ) = 2 * k + 1) ↔ ∃ k : ℤ, (N : ℝ) + ((-((2 : ℕ) : ℚ) : ℚ) : ℝ) = 2 * k + 1 := by
      constructor
      · rintro ⟨k, h⟩; exact ⟨k - 1, by rw [h]; push_cast; ring⟩
      · rintro ⟨k, h⟩; refine ⟨k + 1, ?_⟩; push_cast at h ⊢; linarith
    simp only [this]
  · have : ¬ ∃ k : ℤ, (0 : ℝ) = 2 * k + 1 := by
      rintro ⟨k, h⟩
      have h : (0 : ℤ) = 2 * k + 1 := by exact_mod_cast h
      omega
    simp [this]
  · have : ∃ k : ℤ, (1 : ℝ) = 2 * k + 1 := ⟨0, by simp⟩
    simp only [this, if_true]
  · have : ¬ ∃ k : ℤ, (2 : ℝ) = 2 * k + 1 := by
      rintro ⟨k, h⟩
      have h : (2 : ℤ) = 2 * k + 1 := by exact_mod_cast h
      omega
    simp [this, eval, recTwoApart]

/-! ### Variable coefficients -/

section
variable {K : Type} [Field K] [CharZero K] {I : Interp K} {R : Rec} {O : Oracle} {ρ : String → K} {a : ℕ → ℕ → K}

/-- **C73**, symbolic initial conditions.  For a recurrence with variable coefficients a positive verdict is right: the candidate
has the value of every solution of the recurrence, at every index from the first valid one on. -/
theorem C73_symbolic (hO : OracleOk I R O ρ) (hR : RecOk I R ρ a) (hv : R.constCoeff = false) (hic : R.ics = [])
    {sol : Expr} (hs : Candidate R.n R.first R.order sol) {p : Bool}
    (h : verifyFiniteOrder R O sol p = some (yes p)) : IsSolution I R.n R.rhs ρ sol R.first R.order :=
  C40_solution_partial hO hR hic hs (fun hc => by simp [hv] at hc) h

/-- **C73**, evaluated solution: the candidate has the value of every solution that takes the given initial values. -/
theorem C73_evaluated (hO : OracleOk I R O ρ) (hR : RecOk I R ρ a) (hv : R.constCoeff = false) (hic : R.ics ≠ [])
    {sol : Expr} (hs : hasX sol = false ∧ idxNe R.n sol = true) {p : Bool}
    (h : verifyFiniteOrder R O sol p = some (yes p)) (X : K → K) (hX : SolvesAt I R.n R.rhs ρ X (R.first + R.order))
    (hX0 : ∀ i < R.order, ∀ v : K, eval (withX I X) (update ρ R.n v) (getIC R.ics (firstIC R + i))
      = X ((firstIC R + i : ℕ) : K)) (N : ℕ) (hN : firstIC R ≤ N) :
    eval (withX I X) (update ρ R.n N) sol = X N :=
  C40_evaluated_solution_partial hO hR hic hs (fun hc => by simp [hv] at hc) h X hX hX0 N hN

end

end Purrs.Verify
