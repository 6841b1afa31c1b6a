import Verif.Props.WeightedExtract

/-!
# C153: cases

A case that meets the hypotheses, and two right-hand sides that are taken for weighted averages although they are not.
-/

set_option linter.unusedSectionVars false

namespace Purrs.WeightedExtract

open Finset
open Function (update update_of_ne update_self)
open OrderRed (withX eval_noX SolvesAt IsSolution idxNe)
open Classify (isWeightedSum classify loopFrom summand single product factorStep)
open WeightedAvg (shiftN rewriteWA WA upperStep SolvesWA WAAt Regular computeWA)
open Verify (SumMeaning)

/-- The degree in `y` of an expanded polynomial. -/
def degreeIn (y : String) : Expr → ℕ
  | .add l => (l.map fun a => degreeIn y a).foldr max 0
  | .mul l => (l.map fun a => degreeIn y a).sum
  | .pow b (.num q) => degreeIn y b * q.num.toNat
  | .sym s => if s = y then 1 else 0
  | _ => 0

/-- Operations that cancel `a` to `b`. -/
def tableOps (a b : Expr) : Ops where
  simp := id
  cancel := fun e => if e = a then b else e
  expand := id
  degree := degreeIn
  num := id
  den := fun _ => .num 1
  env := FirstIndex.plainEnv
  fuel := 1

theorem tableOps_cancel (a b : Expr) : (tableOps a b).cancel a = b := by simp [tableOps]

/-- `sum(k, 0, up, body)`. -/
def sumTo (up body : Expr) : Expr := .binder .sum (.sym "k") (.num 0) up body

/-- `x(k)`. -/
def xk : Expr := .fn .x [.sym "k"]

/-- `n - c` as it is written by GiNaC. -/
def nMinus (c : ℚ) : Expr := .add [.sym "n", .num (-c)]

theorem shift_nMinus : shiftN "n" (-1) = nMinus 1 := by simp [shiftN, addE, nMinus]

/-! ### `x(n) = 2 sum(k, 0, n-1, x(k)) + n` -/

/-- The sum. -/
def S1 : Expr := sumTo (nMinus 1) xk

/-- The right-hand side. -/
def rhs1 : Expr := .add [.mul [.num 2, S1], .sym "n"]

/-- The operations: the difference of the collected right-hand side and `2 S` is `n`. -/
def ops1 : Ops := tableOps (subE (addE (.sym "n") (mulE S1 (.num 2))) (mulE (.num 2) S1)) (.sym "n")

theorem isWeightedSum_S (up body : Expr) (h1 : has (.sym "n") up = true) (h2 : hasXOf (.sym "k") body = true) :
    isWeightedSum "n" (sumTo up body) = true := by simp [isWeightedSum, sumTo, h1, h2]

theorem S1_weighted : isWeightedSum "n" S1 = true := isWeightedSum_S _ _ (by simp [nMinus, has]) (by simp [xk, hasXOf, has])

theorem kind_S1 : Classify.kindOf "n" S1 = .linear := by simp [Classify.kindOf, S1, sumTo, nMinus, xk, hasXOf, has]

theorem classify_rhs1 : classify "n" 1000 rhs1 = .weighted := by
  have h1 : summand "n" 1000 0 (.mul [.num 2, S1]) Classify.initSt = .weighted := by
    have hk : Classify.findNonLinear "n" (.mul [.num 2, S1]) = .linear := by
      have e1 : Classify.isXn "n" S1 = false := by simp [Classify.isXn, S1, sumTo]
      simp only [Classify.findNonLinear, List.foldr_cons, List.foldr_nil, Classify.nlStep, kind_S1, e1]
      simp [Classify.kindOf, Classify.isXn]
    unfold summand
    rw [hk]
    simp only
    unfold product
    have hf : factorStep "n" 1000 0 S1 (.ok ⟨.num 1, false, false, 0, 0, Classify.initSt⟩) = .weighted := by
      have := S1_weighted
      simp only [S1, sumTo] at this ⊢
      simp [factorStep, this, Classify.initSt, Classify.St.fresh]
    simp only [List.foldr_cons, List.foldr_nil, hf]
    rfl
  simp only [classify, rhs1, addends, loopFrom, h1]

theorem sumOf_rhs1 : sumOf "n" rhs1 = some (S1, [.num 2]) := by
  have h : sumIn "n" (.mul [.num 2, S1]) = some (S1, [.num 2]) := by
    have e : isWeightedSum "n" (.num 2) = false := rfl
    simp only [sumIn, List.reverse_cons, List.reverse_nil, List.nil_append, List.cons_append, List.find?_cons, S1_weighted, Option.map_some]
    simp [S1, sumTo]
  simp only [sumOf, rhs1, addends, List.findSome?_cons, h]

theorem collect_rhs1 : collectTerm S1 rhs1 = (addE (.sym "n") (mulE S1 (.num 2)), .num 2) := by
  simp [collectTerm, rhs1, S1, sumTo, collectAddend, collectFactor, addE, mulE]

theorem weight_rhs1 : weightOf ops1 rhs1 S1 [.num 2] = .num 2 := by
  unfold weightOf
  simp only [show ops1.simp rhs1 = rhs1 from rfl, collect_rhs1]
  simp

theorem inhom_rhs1 : inhomOf ops1 rhs1 S1 [.num 2] = .sym "n" := by
  unfold inhomOf
  rw [weight_rhs1]
  simp only [show ops1.simp rhs1 = rhs1 from rfl, collect_rhs1]
  exact tableOps_cancel _ _

/-- What is read from the right-hand side. -/
def r1 : Extracted := ⟨.num 2, .sym "n", 0, false⟩

theorem extract_rhs1 : extract ops1 "n" "y" rhs1 S1 [.num 2] = some r1 := by
  have ha : accepted ops1 "n" "y" (.num 2) (.sym "n") (.sym "k") (nMinus 1) xk = true := by
    have hs : summandIn ops1 "y" (.sym "k") xk = .sym "y" := by simp [summandIn, xk, substitute, ops1, tableOps]
    unfold accepted
    rw [hs]
    simp [hasXOf, hasParameters, shift_nMinus, isPolynomial, ops1, tableOps, degreeIn]
  have e : extract ops1 "n" "y" rhs1 S1 [.num 2] =
      if (0 : ℚ).den = 1 ∧ (0 : ℚ) ≤ 0 ∧ accepted ops1 "n" "y" (weightOf ops1 rhs1 S1 [.num 2]) (inhomOf ops1 rhs1 S1 [.num 2]) (.sym "k") (nMinus 1) xk = true then
        some ⟨weightOf ops1 rhs1 S1 [.num 2], inhomOf ops1 rhs1 S1 [.num 2], (0 : ℚ).num.toNat, decide (nMinus 1 = .sym "n")⟩ else none := rfl
  rw [e, weight_rhs1, inhom_rhs1, if_pos ⟨rfl, le_refl _, ha⟩]
  simp [r1, nMinus]

theorem domain_const (a b : Expr) (q : ℚ) (g : Expr) : domain (tableOps a b) "n" (.num q) g = some 0 := by
  simp [domain, domStep, tableOps, Functional.findDomain, Functional.bothDom, Functional.exDom, FirstIndex.plainEnv, has]

/-- What is stored. -/
def wa1 : WA := ⟨.num 2, .sym "n", .num 2, .sym "n", 0, false, WeightedAvg.firstOrderRhs "n" (.num 2) (.sym "n"), 0⟩

theorem store_r1 : store ops1 "n" r1 = some wa1 := by
  unfold store
  have hu : upperStep "n" r1.upperIsN r1.lower r1.weight r1.inhom = (.num 2, .sym "n", 0) := by simp [upperStep, r1]
  rw [hu]
  simp only [ops1, domain_const]
  simp [rewriteWA, r1, wa1, upperStep]

theorem classifyWA_rhs1 : classifyWA ops1 "n" "y" 1000 rhs1 = some (r1, wa1) := by
  unfold classifyWA
  rw [classify_rhs1]
  simp only [sumOf_rhs1, Option.bind_some, extract_rhs1, store_r1, Option.map_some]

theorem keep_rhs1 {K : Type} [Field K] [CharZero K] (I : Interp K) (ρ : String → K) : OpsKeep I ops1 "n" ρ rhs1 S1 [.num 2] where
  simp := fun _ _ => rfl
  cancel := by
    intro X N
    rw [inhom_rhs1, weight_rhs1]
    simp only [show ops1.simp rhs1 = rhs1 from rfl, collect_rhs1]
    simp only [eval_subE, eval_addE, eval_mulE]
    ring

theorem firstPower_rhs1 : FirstPower S1 rhs1 := by
  intro a ha
  simp only [rhs1, addends, List.mem_cons, List.not_mem_nil, or_false] at ha
  rcases ha with rfl | rfl
  · refine ⟨by simp, by simp [OneXPerProduct, IsXFactor, S1, sumTo, List.filter], ?_⟩
    intro fs hfs f hf k
    cases hfs
    simp only [List.mem_cons, List.not_mem_nil, or_false] at hf
    rcases hf with rfl | rfl <;> simp [S1, sumTo]
  · exact ⟨by simp, trivial, by simp⟩

/-- **C153**, a concrete case: all hypotheses hold for `x(n) = 2 sum(k, 0, n-1, x(k)) + n`, recorded with weight `2` and inhomogeneous term `n`. -/
theorem C153_nonvacuous (ρ : String → ℝ) : SumMeaning (realInterp 0) ∧ classifyWA ops1 "n" "y" 1000 rhs1 = some (r1, wa1) ∧
    sumOf "n" rhs1 = some (.binder .sum (.sym "k") (.num 0) (nMinus 1) (.fn .x [.sym "k"]), [.num 2]) ∧
    OpsKeep (realInterp 0) ops1 "n" ρ rhs1 S1 [.num 2] ∧ FirstPower S1 (ops1.simp rhs1) :=
  ⟨sumMeaning_real 0, classifyWA_rhs1, sumOf_rhs1, keep_rhs1 _ ρ, firstPower_rhs1⟩

/-! ### `x(n) = sum(k, 0, n-1, k x(k))` -/

/-- The right-hand side. -/
def rhs2 : Expr := sumTo (nMinus 1) (.mul [.sym "k", xk])

/-- The operations: a term minus itself is 0. -/
def ops2 : Ops := tableOps (subE rhs2 (mulE (.num 1) rhs2)) (.num 0)

theorem rhs2_weighted : isWeightedSum "n" rhs2 = true := isWeightedSum_S _ _ (by simp [nMinus, has]) (by simp [xk, hasXOf, has])

theorem classify_rhs2 : classify "n" 1000 rhs2 = .weighted := by
  have hk : Classify.findNonLinear "n" rhs2 = .linear := by
    simp [Classify.findNonLinear, Classify.kindOf, rhs2, sumTo, nMinus, xk, hasXOf, has]
  have h1 : summand "n" 1000 0 rhs2 Classify.initSt = .weighted := by
    unfold summand
    rw [hk]
    have := rhs2_weighted
    simp only [rhs2, sumTo] at this ⊢
    simp [single, this, Classify.initSt, Classify.St.fresh]
  have ha : addends rhs2 = [rhs2] := rfl
  simp only [classify, ha, loopFrom, h1]

theorem sumOf_rhs2 : sumOf "n" rhs2 = some (rhs2, []) := by
  have h : sumIn "n" rhs2 = some (rhs2, []) := by
    have := rhs2_weighted
    simp only [rhs2, sumTo] at this ⊢
    simp [sumIn, this]
  have ha : addends rhs2 = [rhs2] := rfl
  simp only [sumOf, ha, List.findSome?_cons, h]

theorem weight_rhs2 : weightOf ops2 rhs2 rhs2 [] = .num 1 := by
  unfold weightOf
  simp [show collectTerm rhs2 (ops2.simp rhs2) = (rhs2, .num 1) from rfl]

theorem inhom_rhs2 : inhomOf ops2 rhs2 rhs2 [] = .num 0 := by
  unfold inhomOf
  rw [weight_rhs2]
  simp only [show collectTerm rhs2 (ops2.simp rhs2) = (rhs2, .num 1) from rfl]
  exact tableOps_cancel _ _

/-- What is read: weight 1, inhomogeneous term 0. -/
def r2 : Extracted := ⟨.num 1, .num 0, 0, false⟩

theorem extract_rhs2 : extract ops2 "n" "y" rhs2 rhs2 [] = some r2 := by
  have ha : accepted ops2 "n" "y" (.num 1) (.num 0) (.sym "k") (nMinus 1) (.mul [.sym "k", xk]) = true := by
    have hs : summandIn ops2 "y" (.sym "k") (.mul [.sym "k", xk]) = .mul [.sym "y", .sym "k"] := by
      simp [summandIn, xk, substitute, ops2, tableOps, mulE]
    unfold accepted
    rw [hs]
    simp [hasXOf, hasParameters, shift_nMinus, isPolynomial, isScalarRep, ops2, tableOps, degreeIn]
  have e : extract ops2 "n" "y" rhs2 rhs2 [] =
      if (0 : ℚ).den = 1 ∧ (0 : ℚ) ≤ 0 ∧ accepted ops2 "n" "y" (weightOf ops2 rhs2 rhs2 []) (inhomOf ops2 rhs2 rhs2 []) (.sym "k") (nMinus 1) (.mul [.sym "k", xk]) = true then
        some ⟨weightOf ops2 rhs2 rhs2 [], inhomOf ops2 rhs2 rhs2 [], (0 : ℚ).num.toNat, decide (nMinus 1 = .sym "n")⟩ else none := rfl
  rw [e, weight_rhs2, inhom_rhs2, if_pos ⟨rfl, le_refl _, ha⟩]
  simp [r2, nMinus]

/-- What is stored. -/
def wa2 : WA := ⟨.num 1, .num 0, .num 1, .num 0, 0, false, WeightedAvg.firstOrderRhs "n" (.num 1) (.num 0), 0⟩

theorem store_r2 : store ops2 "n" r2 = some wa2 := by
  unfold store
  have hu : upperStep "n" r2.upperIsN r2.lower r2.weight r2.inhom = (.num 1, .num 0, 0) := by simp [upperStep, r2]
  rw [hu]
  simp only [ops2, domain_const]
  simp [rewriteWA, r2, wa2, upperStep]

theorem classifyWA_rhs2 : classifyWA ops2 "n" "y" 1000 rhs2 = some (r2, wa2) := by
  unfold classifyWA
  rw [classify_rhs2]
  simp only [sumOf_rhs2, Option.bind_some, extract_rhs2, store_r2, Option.map_some]

/-- The value of the right-hand side. -/
theorem rhs2_val (X : ℝ → ℝ) (ρ : String → ℝ) {N : ℕ} (hN : 0 < N) :
    eval (withX (realInterp 0) X) (update ρ "n" (N : ℝ)) rhs2 = ∑ k ∈ Icc 0 (N - 1), (k : ℝ) * X (k : ℝ) := by
  have hbody : (fun v => eval (withX (realInterp 0) X) (bindIdx (update ρ "n" (N : ℝ)) (.sym "k") v) (.mul [.sym "k", xk])) = fun v => v * X v := by
    funext v
    simp [eval, bindIdx, withX, xk]
  rw [rhs2, sumTo, eval, hbody]
  have h1 : eval (withX (realInterp 0) X) (update ρ "n" (N : ℝ)) (nMinus 1) = ((N - 1 : ℕ) : ℝ) := by
    rw [Nat.cast_sub (by omega)]
    simp [nMinus, eval]
    ring
  have h2 : eval (withX (realInterp 0) X) (update ρ "n" (N : ℝ)) (.num 0) = ((0 : ℕ) : ℝ) := by simp [eval]
  rw [h1, h2]
  exact sumMeaning_real 0 (fun v => v * X v) 0 (N - 1) (by omega)

/-- **C153** fails for other summands (src/rr_classifier.cc:937-943 only asks that the summand has degree at most 1 in `x(k)`): the recurrence
`x(n) = sum(k, 0, n-1, k x(k))` is taken for `x(n) = sum(k, 0, n-1, x(k))`.  With `x(0) = 1` all the values `x(1), x(2), ...` are 0; they do not
satisfy the recorded recurrence, and every expression that solves the latter is wrong at `n = 1`. -/
theorem C153_summand_refuted (ρ : String → ℝ) : ∃ X : ℝ → ℝ, classifyWA ops2 "n" "y" 1000 rhs2 = some (r2, wa2) ∧
    SolvesAt (realInterp 0) "n" rhs2 ρ X (r2.lower + 1) ∧ ¬ SolvesWA (realInterp 0) "n" ρ r2.weight r2.inhom r2.lower r2.upperIsN X ∧
    ∀ X' : ℝ → ℝ, X' 0 = X 0 → SolvesWA (realInterp 0) "n" ρ r2.weight r2.inhom r2.lower r2.upperIsN X' → X' ((1 : ℕ) : ℝ) ≠ X ((1 : ℕ) : ℝ) := by
  have key : ∀ X' : ℝ → ℝ, SolvesWA (realInterp 0) "n" ρ r2.weight r2.inhom r2.lower r2.upperIsN X' → X' ((1 : ℕ) : ℝ) = X' 0 := by
    intro X' h
    have := h 1 (by simp [r2])
    unfold WAAt at this
    simpa [r2, eval] using this
  refine ⟨fun v => if v = 0 then 1 else 0, classifyWA_rhs2, ?_, fun h => ?_, fun X' h0 h => ?_⟩
  · intro N hN
    have hN' : 0 < N := by simp only [r2] at hN; omega
    rw [rhs2_val _ ρ hN']
    have : (N : ℝ) ≠ 0 := by exact_mod_cast hN'.ne'
    refine (if_neg this).trans (Eq.symm ?_)
    refine Finset.sum_eq_zero fun k _ => ?_
    by_cases hk : (k : ℝ) = 0 <;> simp [hk]
  · have := key _ h
    norm_num at this
  · rw [key X' h, h0]
    norm_num

/-! ### `x(n) = sum(k, 0, n-1, x(k)) + sum(k, 0, n-2, x(k))` -/

/-- The second sum. -/
def S3 : Expr := sumTo (nMinus 2) xk

/-- The right-hand side. -/
def rhs3 : Expr := .add [S1, S3]

/-- The operations: the difference of the right-hand side and the first sum is the second sum. -/
def ops3 : Ops := tableOps (subE (addE S3 (mulE S1 (.num 1))) (mulE (.num 1) S1)) S3

theorem S1_ne_S3 : S3 ≠ S1 := by
  intro h
  simp only [S1, S3, sumTo, nMinus, Expr.binder.injEq, Expr.add.injEq, List.cons.injEq, Expr.num.injEq] at h
  norm_num at h

theorem classify_rhs3 : classify "n" 1000 rhs3 = .weighted := by
  have h1 : summand "n" 1000 0 S1 Classify.initSt = .weighted := by
    have hk : Classify.findNonLinear "n" S1 = .linear := kind_S1
    unfold summand
    rw [hk]
    have := S1_weighted
    simp only [S1, sumTo] at this ⊢
    simp [single, this, Classify.initSt, Classify.St.fresh]
  simp only [classify, rhs3, addends, loopFrom, h1]

theorem sumOf_rhs3 : sumOf "n" rhs3 = some (S1, []) := by
  have h : sumIn "n" S1 = some (S1, []) := by
    have := S1_weighted
    simp only [S1, sumTo] at this ⊢
    simp [sumIn, this]
  simp only [sumOf, rhs3, addends, List.findSome?_cons, h]

theorem collect_rhs3 : collectTerm S1 rhs3 = (addE S3 (mulE S1 (.num 1)), .num 1) := by
  have e1 : collectAddend S1 S3 (.num 0, .num 0) = (.num 0, S3) := by
    have h0 : addE (.num 0) S3 = S3 := by simp [addE, S3, sumTo]
    exact (if_neg (t := ((addE (.num 0) (.num 1), .num 0) : Expr × Expr)) S1_ne_S3).trans (by rw [h0])
  have e2 : collectAddend S1 S1 (.num 0, S3) = (.num 1, S3) := by
    have : S1 = S1 := rfl
    simp only [S1, sumTo, collectAddend, if_true]
    simp [addE]
  simp only [collectTerm, rhs3, List.foldr_cons, List.foldr_nil, e1, e2]

theorem weight_rhs3 : weightOf ops3 rhs3 S1 [] = .num 1 := by
  unfold weightOf
  simp [show ops3.simp rhs3 = rhs3 from rfl, collect_rhs3]

theorem inhom_rhs3 : inhomOf ops3 rhs3 S1 [] = S3 := by
  unfold inhomOf
  rw [weight_rhs3]
  simp only [show ops3.simp rhs3 = rhs3 from rfl, collect_rhs3]
  exact tableOps_cancel _ _

/-- What is read: weight 1, inhomogeneous term the second sum. -/
def r3 : Extracted := ⟨.num 1, S3, 0, false⟩

theorem extract_rhs3 : extract ops3 "n" "y" rhs3 S1 [] = some r3 := by
  have ha : accepted ops3 "n" "y" (.num 1) S3 (.sym "k") (nMinus 1) xk = true := by
    have hs : summandIn ops3 "y" (.sym "k") xk = .sym "y" := by simp [summandIn, xk, substitute, ops3, tableOps]
    unfold accepted
    rw [hs]
    simp [hasXOf, hasParameters, shift_nMinus, isPolynomial, ops3, tableOps, degreeIn, S3, sumTo, nMinus, xk, has]
  have e : extract ops3 "n" "y" rhs3 S1 [] =
      if (0 : ℚ).den = 1 ∧ (0 : ℚ) ≤ 0 ∧ accepted ops3 "n" "y" (weightOf ops3 rhs3 S1 []) (inhomOf ops3 rhs3 S1 []) (.sym "k") (nMinus 1) xk = true then
        some ⟨weightOf ops3 rhs3 S1 [], inhomOf ops3 rhs3 S1 [], (0 : ℚ).num.toNat, decide (nMinus 1 = .sym "n")⟩ else none := rfl
  rw [e, weight_rhs3, inhom_rhs3, if_pos ⟨rfl, le_refl _, ha⟩]
  simp [r3, nMinus]

theorem store_r3 : ∃ wa, store ops3 "n" r3 = some wa ∧ wa.inhom = S3 ∧ wa.weight = .num 1 := by
  unfold store
  have hu : upperStep "n" r3.upperIsN r3.lower r3.weight r3.inhom = (.num 1, S3, 0) := by simp [upperStep, r3]
  rw [hu]
  simp only [ops3, domain_const]
  simp [rewriteWA, r3, upperStep]

/-- **C153**: the inhomogeneous term that is recorded can contain the unknown.  `x(n) = sum(k, 0, n-1, x(k)) + sum(k, 0, n-2, x(k))` is recorded as a
weighted average with weight 1 whose "known" term is the second sum: its value depends on the sequence that is looked for. -/
theorem C153_other_sum_refuted (ρ : String → ℝ) : ∃ wa, classifyWA ops3 "n" "y" 1000 rhs3 = some (r3, wa) ∧ wa.inhom = r3.inhom ∧
    hasX r3.inhom = true ∧ ∃ X Y : ℝ → ℝ,
      eval (withX (realInterp 0) X) (update ρ "n" ((2 : ℕ) : ℝ)) r3.inhom ≠ eval (withX (realInterp 0) Y) (update ρ "n" ((2 : ℕ) : ℝ)) r3.inhom := by
  obtain ⟨wa, h1, h2, -⟩ := store_r3
  refine ⟨wa, ?_, h2, by simp [r3, S3, sumTo, xk, hasX], fun _ => 0, fun _ => 1, ?_⟩
  · unfold classifyWA
    rw [classify_rhs3]
    simp only [sumOf_rhs3, Option.bind_some, extract_rhs3, h1, Option.map_some]
  · have hv : ∀ X : ℝ → ℝ, eval (withX (realInterp 0) X) (update ρ "n" ((2 : ℕ) : ℝ)) S3 = X 0 := by
      intro X
      have hbody : (fun v => eval (withX (realInterp 0) X) (bindIdx (update ρ "n" ((2 : ℕ) : ℝ)) (.sym "k") v) xk) = X := by
        funext v
        simp [eval, bindIdx, withX, xk]
      rw [S3, sumTo, eval, hbody]
      have e1 : eval (withX (realInterp 0) X) (update ρ "n" ((2 : ℕ) : ℝ)) (nMinus 2) = ((0 : ℕ) : ℝ) := by simp [nMinus, eval]
      have e2 : eval (withX (realInterp 0) X) (update ρ "n" ((2 : ℕ) : ℝ)) (.num 0) = ((0 : ℕ) : ℝ) := by simp [eval]
      rw [e1, e2]
      refine (sumMeaning_real 0 X 0 0 (le_refl _)).trans ?_
      simp
    show eval _ _ S3 ≠ eval _ _ S3
    rw [hv, hv]
    norm_num

/-! ### A product: `x(n) = 2 sum(k, 0, n-1, x(k))` -/

/-- The operations: `2 S - 2 S` is `0`. -/
def ops0 : Ops := tableOps (subE (.mul [.num 2, S1]) (mulE (.num 2) S1)) (.num 0)

theorem weight_rhs0 : weightOf ops0 (.mul [.num 2, S1]) S1 [.num 2] = .num 2 := by
  unfold weightOf
  rw [if_pos (show (collectTerm S1 (ops0.simp (.mul [.num 2, S1]))).2 = .num 1 from rfl)]
  simp [mulE]

/-- The hypotheses of `C153_product` are met, and the weight is `2`, the inhomogeneous term `0`. -/
theorem C153_product_nonvacuous {K : Type} [Field K] [CharZero K] (I : Interp K) (ρ : String → K) : ops0.simp (.mul [.num 2, S1]) = .mul [.num 2, S1] ∧
    [.num 2, S1].Perm (S1 :: [.num 2]) ∧ OpsKeep I ops0 "n" ρ (.mul [.num 2, S1]) S1 [.num 2] ∧
    weightOf ops0 (.mul [.num 2, S1]) S1 [.num 2] = .num 2 ∧ inhomOf ops0 (.mul [.num 2, S1]) S1 [.num 2] = .num 0 := by
  have hi : inhomOf ops0 (.mul [.num 2, S1]) S1 [.num 2] = .num 0 := by
    unfold inhomOf
    rw [weight_rhs0]
    exact tableOps_cancel _ _
  refine ⟨rfl, List.Perm.swap _ _ _, ⟨fun _ _ => rfl, ?_⟩, weight_rhs0, hi⟩
  intro X N
  rw [hi, weight_rhs0]
  show _ = eval _ _ (subE (.mul [.num 2, S1]) (mulE (.num 2) S1))
  rw [eval_subE, eval_mulE]
  simp [eval]

/-- The hypotheses of `C153_sum` are met by `x(n) = 2 sum(k, 0, n-1, x(k)) + n`: what is left is `n`. -/
theorem C153_sum_nonvacuous {K : Type} [Field K] [CharZero K] (I : Interp K) (ρ : String → K) : ops1.simp rhs1 = .add [.mul [.num 2, S1], .sym "n"] ∧
    FirstPower S1 rhs1 ∧ (∃ p : Expr → Bool, (∀ a ∈ [.mul [.num 2, S1], .sym "n"], p a = true ↔ ¬ Carries S1 a) ∧
      [Expr.sym "n"] = [.mul [.num 2, S1], .sym "n"].filter p) ∧
    (collectTerm S1 rhs1).2 ≠ .num 1 ∧ OpsKeep I ops1 "n" ρ rhs1 S1 [.num 2] := by
  refine ⟨rfl, firstPower_rhs1, ⟨fun a => decide (a = .sym "n"), ?_, ?_⟩, ?_, keep_rhs1 I ρ⟩
  · intro a ha
    simp only [List.mem_cons, List.not_mem_nil, or_false] at ha
    rcases ha with rfl | rfl
    · simp [Carries, S1, sumTo]
    · simp [Carries, S1, sumTo]
  · simp
  · rw [collect_rhs1]; simp

end Purrs.WeightedExtract
