import Verif.Props.CapstoneWA
import Verif.Props.WeightedExtractEx
import Verif.Props.CapstoneVarEx

/-!
# A case meeting the hypotheses of C154: `x(n) = 2/n sum(k, 0, n-1, x(k)) + 1`
-/

set_option linter.unusedSectionVars false

namespace Purrs.CapstoneWA

open Function (update update_of_ne update_self)
open OrderRed (withX eval_noX SolvesAt IsSolution idxNe)
open OnIC (Shape)
open SolveLin (Denotes Unknown OpsOk KeepsX VarOk ICs solveLinear exU)
open Capstone (SoundWeighted FirstIC)
open FirstIndex (Searched firstIndex relevant)
open WeightedAvg (WA upperStep rewriteWA computeWA Regular SolvesWA divE x0ok)
open WeightedExtract (Extracted classifyWA sumOf sumIn OpsKeep FirstPower domain domStep store extract weightOf inhomOf accepted summandIn S1 S1_weighted kind_S1 nMinus xk
  sumTo degreeIn)
open Bounds (val)
open RecState

/-- `1/n`. -/
def inv : Expr := .pow (.sym "n") (.num (-1))

/-- The weight `2/n`, in the order in which it is read. -/
def wQ : Expr := .mul [inv, .num 2]

/-- `2/n sum(k, 0, n-1, x(k)) + 1`. -/
def rhsQ : Expr := .add [.mul [.num 2, inv, S1], .num 1]

/-- Numerators, denominators and roots. -/
def envQ : Functional.Env := ⟨id, fun _ => .num 1, fun _ => some [0]⟩

/-- The right-hand side with the sum collected. -/
def colQ : Expr := addE (.num 1) (.mul [S1, inv, .num 2])

/-- The operations. -/
def opsQ : WeightedExtract.Ops where
  simp := id
  cancel := fun e => if e = subE colQ (mulE wQ S1) then .num 1 else e
  expand := id
  degree := degreeIn
  num := fun e => if e = wQ then .num 2 else e
  den := fun e => if e = wQ then .sym "n" else .num 1
  env := envQ
  fuel := 1

theorem cancelQ : opsQ.cancel (subE colQ (mulE wQ S1)) = .num 1 := by simp [opsQ]

theorem collectQ : collectTerm S1 rhsQ = (colQ, wQ) := by
  simp [collectTerm, rhsQ, S1, sumTo, collectAddend, collectFactor, addE, mulE, inv, colQ, wQ]

theorem weightQ : weightOf opsQ rhsQ S1 [.num 2, inv] = wQ := by
  unfold weightOf
  simp only [show opsQ.simp rhsQ = rhsQ from rfl, collectQ]
  simp [wQ]

theorem inhomQ : inhomOf opsQ rhsQ S1 [.num 2, inv] = .num 1 := by
  unfold inhomOf
  rw [weightQ]
  simp only [show opsQ.simp rhsQ = rhsQ from rfl, collectQ]
  exact cancelQ

theorem classifyQ : Classify.classify "n" 1000 rhsQ = .weighted := by
  have h1 : Classify.summand "n" 1000 0 (.mul [.num 2, inv, S1]) Classify.initSt = .weighted := by
    have hk : Classify.findNonLinear "n" (.mul [.num 2, inv, S1]) = .linear := by
      have e1 : Classify.isXn "n" S1 = false := by simp [Classify.isXn, S1, sumTo]
      simp only [Classify.findNonLinear, List.foldr_cons, List.foldr_nil, Classify.nlStep, kind_S1, e1]
      simp [Classify.kindOf, Classify.isXn, inv, hasXOf]
    unfold Classify.summand
    rw [hk]
    simp only
    unfold Classify.product
    have hf : Classify.factorStep "n" 1000 0 S1 (.ok ⟨.num 1, false, false, 0, 0, Classify.initSt⟩) = .weighted := by
      have := S1_weighted
      simp only [S1, sumTo] at this ⊢
      simp [Classify.factorStep, this, Classify.initSt, Classify.St.fresh]
    simp only [List.foldr_cons, List.foldr_nil, hf]
    rfl
  simp only [Classify.classify, rhsQ, addends, Classify.loopFrom, h1]

theorem sumOfQ : sumOf "n" rhsQ = some (S1, [.num 2, inv]) := by
  have h : sumIn "n" (.mul [.num 2, inv, S1]) = some (S1, [.num 2, inv]) := by
    simp only [sumIn, List.reverse_cons, List.reverse_nil, List.nil_append, List.cons_append, List.find?_cons, S1_weighted, Option.map_some]
    simp [S1, sumTo, inv]
  simp only [sumOf, rhsQ, addends, List.findSome?_cons, h]

/-- What is read from the right-hand side. -/
def rQ : Extracted := ⟨wQ, .num 1, 0, false⟩

theorem extractQ : extract opsQ "n" "y" rhsQ S1 [.num 2, inv] = some rQ := by
  have ha : accepted opsQ "n" "y" wQ (.num 1) (.sym "k") (nMinus 1) xk = true := by
    have hs : summandIn opsQ "y" (.sym "k") xk = .sym "y" := by simp [summandIn, xk, substitute, opsQ]
    unfold accepted
    rw [hs]
    simp [hasXOf, hasParameters, WeightedExtract.shift_nMinus, isPolynomial, opsQ, degreeIn, wQ, inv]
  have e : extract opsQ "n" "y" rhsQ S1 [.num 2, inv] =
      if (0 : ℚ).den = 1 ∧ (0 : ℚ) ≤ 0 ∧ accepted opsQ "n" "y" (weightOf opsQ rhsQ S1 [.num 2, inv]) (inhomOf opsQ rhsQ S1 [.num 2, inv]) (.sym "k") (nMinus 1) xk = true then
        some ⟨weightOf opsQ rhsQ S1 [.num 2, inv], inhomOf opsQ rhsQ S1 [.num 2, inv], (0 : ℚ).num.toNat, decide (nMinus 1 = .sym "n")⟩ else none := rfl
  rw [e, weightQ, inhomQ, if_pos ⟨rfl, le_refl _, ha⟩]
  simp [rQ, nMinus]

/-- What is stored. -/
def waQ : WA := ⟨wQ, .num 1, wQ, .num 1, 0, false, WeightedAvg.firstOrderRhs "n" wQ (.num 1), 0⟩

theorem domainQ : domain opsQ "n" wQ (.num 1) = some 0 := by
  have h1 : opsQ.num wQ = .num 2 := by simp [opsQ]
  have h2 : opsQ.den wQ = .sym "n" := by simp [opsQ]
  have h3 : opsQ.den (.num 1) = .num 1 := by simp [opsQ, wQ]
  unfold domain
  rw [h1, h2, h3]
  simp [domStep, opsQ, Functional.findDomain, Functional.bothDom, Functional.exDom, envQ, has, isPolynomial, Functional.polyDom, isRatPolynomial, Functional.raise]

theorem storeQ : store opsQ "n" rQ = some waQ := by
  unfold store
  have hu : upperStep "n" rQ.upperIsN rQ.lower rQ.weight rQ.inhom = (wQ, .num 1, 0) := by simp [upperStep, rQ]
  rw [hu]
  simp only [domainQ]
  simp [rewriteWA, rQ, waQ, upperStep]

theorem classifyWAQ : classifyWA opsQ "n" "y" 1000 rhsQ = some (rQ, waQ) := by
  unfold classifyWA
  rw [classifyQ]
  simp only [sumOfQ, Option.bind_some, extractQ, storeQ, Option.map_some]

theorem keepQ (ρ : String → ℝ) : OpsKeep (realInterp 0) opsQ "n" ρ rhsQ S1 [.num 2, inv] where
  simp := fun _ _ => rfl
  cancel := by
    intro X N
    rw [inhomQ, weightQ]
    simp only [show opsQ.simp rhsQ = rhsQ from rfl, collectQ]
    simp only [eval_subE, eval_addE, eval_mulE, colQ, wQ, eval, List.map_cons, List.map_nil, List.prod_cons, List.prod_nil]
    ring

theorem firstPowerQ : FirstPower S1 rhsQ := by
  intro a ha
  simp only [rhsQ, addends, List.mem_cons, List.not_mem_nil, or_false] at ha
  rcases ha with rfl | rfl
  · refine ⟨by simp, by simp [OneXPerProduct, IsXFactor, S1, sumTo, List.filter, inv], ?_⟩
    intro fs hfs f hf k
    cases hfs
    simp only [List.mem_cons, List.not_mem_nil, or_false] at hf
    rcases hf with rfl | rfl | rfl <;> simp [S1, sumTo, inv]
  · exact ⟨by simp, trivial, by simp⟩

theorem inv_val (X : ℝ → ℝ) (σ : String → ℝ) : eval (withX (realInterp 0) X) σ inv = (σ "n")⁻¹ := by
  simp only [inv, eval]
  rw [show ((-1 : ℚ) : ℝ) = ((-1 : ℤ) : ℝ) by push_cast; rfl, (withX (realInterp 0) X).pw_int, zpow_neg_one]

theorem wQ_val (X : ℝ → ℝ) (σ : String → ℝ) : eval (withX (realInterp 0) X) σ wQ = 2 / σ "n" := by
  simp only [wQ, eval, List.map_cons, List.map_nil, List.prod_cons, List.prod_nil, inv_val]
  push_cast
  ring

theorem isWeightedQ (ρ : String → ℝ) : IsWeighted opsQ "n" "y" (fun _ => False) ρ 1000 0 rhsQ rQ waQ where
  ok := classifyWAQ
  sum := ⟨"k", .num 0, nMinus 1, [.num 2, inv], sumOfQ, keepQ ρ, firstPowerQ⟩
  weight := by simp [rQ, wQ, inv, Shape]
  inhom := by simp [rQ, Shape]
  apart := fun _ h => h.elim
  nB := fun h => h
  fuel := rfl
  searched := by
    have h1 : has (.sym "n") (.num 1) = false ∧ eval (realInterp 0) ρ (.num 1) ≠ 0 := ⟨by simp [has], by simp [eval]⟩
    have h2 : has (.sym "n") (.num 2) = false ∧ eval (realInterp 0) ρ (.num 2) ≠ 0 := ⟨by simp [has], by simp [eval]⟩
    have e1 : opsQ.num (wUp "n" rQ) = .num 2 := by simp [opsQ, wUp, upperStep, rQ]
    have e2 : opsQ.den (wUp "n" rQ) = .sym "n" := by simp [opsQ, wUp, upperStep, rQ]
    rw [e1, e2]
    constructor
    · rintro q (rfl | rfl)
      · exact .inl h2
      · exact .inl h1
    · rintro q (rfl | rfl)
      · right
        refine ⟨by simp [opsQ, envQ, has], by simp [opsQ, envQ, isPolynomial], by simp [opsQ, envQ, isRatPolynomial], [0], rfl, fun m hm => ?_⟩
        have : (m : ℝ) = 0 := by simpa [val, opsQ, envQ, eval] using hm
        have : m = 0 := by exact_mod_cast this
        simp [this]
      · exact .inl h1
  quotient := by
    intro N hN _
    have e0 : wUp "n" rQ = wQ := by simp [wUp, upperStep, rQ]
    have e1 : opsQ.num wQ = .num 2 := by simp [opsQ]
    have e2 : opsQ.den wQ = .sym "n" := by simp [opsQ]
    rw [e0, e1, e2]
    have := wQ_val 0 (update ρ "n" (N : ℝ))
    rw [NonLinear.withX_real] at this
    simp [val, this, eval]
  fraction := by
    intro p _ N _ _
    simp [opsQ, envQ, val, eval]
  notOne := by simp [rQ]
  notMinus := by simp [waQ, wQ]

/-! ### The associated recurrence `x(n) = (n+2)/(n+1) x(n-1) + 1/(n+1)` -/

/-- `1/(n+1)`. -/
def inv1 : Expr := .pow (.add [.sym "n", .num 1]) (.num (-1))

/-- `n + 2`. -/
def n2 : Expr := .add [.sym "n", .num 2]

/-- The right-hand side, simplified. -/
def first : Expr := .add [.mul [n2, inv1, .fn .x [.add [.sym "n", .num (-1)]]], inv1]

/-- What the classification finds. -/
def stQ : Classify.St := ⟨.linVar, inv1, 1, [.num 0, .mul [inv1, n2]], 1, []⟩

theorem first_classify : Classify.classify "n" 1000 first = .ok stQ := by
  have d1 := Classify.getDecrement_mk "n" (-1) (by norm_num)
  have o1 : Classify.computeOrder 1000 (- -1) 0 = .ok (1, 1) := by rfl
  have h1 : Classify.summand "n" 1000 0 (.mul [n2, inv1, .fn .x [.add [.sym "n", .num (-1)]]]) Classify.initSt
      = .ok ⟨.linVar, .num 0, 1, [.num 0, .mul [inv1, n2]], 1, []⟩ := by
    have hl : Classify.findNonLinear "n" (.mul [n2, inv1, .fn .x [.add [.sym "n", .num (-1)]]]) = .linear := by
      simp [Classify.findNonLinear, Classify.kindOf, Classify.nlStep, hasXOf, Classify.isXn, n2, inv1]
      try (split <;> simp)
    simp only [Classify.summand, hl, Classify.product, List.foldr_cons, List.foldr_nil, Classify.factorStep, Classify.factorX, d1, o1, Classify.initSt]
    simp [has, hasParameters, Classify.isAdd2, Classify.newGcd, Classify.insertCoeff, Classify.isWeightedSum,
      Classify.finishProduct, mulE, n2, inv1]
  have h2 : Classify.summand "n" 1000 1 inv1 ⟨.linVar, .num 0, 1, [.num 0, .mul [inv1, n2]], 1, []⟩ = .ok stQ := by
    simp [Classify.summand, Classify.findNonLinear, Classify.kindOf, Classify.single, Classify.isWeightedSum, Classify.addInhom, addE, inv1, hasXOf, stQ]
  simp only [first, Classify.classify, addends, Classify.loopFrom, h1, h2]

/-- Numerators, denominators and roots. -/
def envV : Functional.Env where
  num := fun e => if e = .mul [inv1, n2] then n2 else e
  den := fun e => if e = .mul [inv1, n2] then .add [.sym "n", .num 1] else .num 1
  roots := fun e => if e = n2 then some [-2] else some [-1]

theorem inv1_val (X : ℝ → ℝ) (σ : String → ℝ) : eval (withX (realInterp 0) X) σ inv1 = (σ "n" + 1)⁻¹ := by
  simp only [inv1, eval]
  rw [show ((-1 : ℚ) : ℝ) = ((-1 : ℤ) : ℝ) by push_cast; rfl, (withX (realInterp 0) X).pw_int, zpow_neg_one]
  simp [eval]

theorem n2_val (X : ℝ → ℝ) (σ : String → ℝ) : eval (withX (realInterp 0) X) σ n2 = σ "n" + 2 := by
  simp [n2, eval]

theorem coeff_valQ (ρ : String → ℝ) (N : ℕ) : val 0 ρ "n" (CapstoneVar.coeff stQ) N = ((N : ℝ) + 2) / (N + 1) := by
  have h1 := inv1_val 0 (update ρ "n" (N : ℝ))
  have h2 := n2_val 0 (update ρ "n" (N : ℝ))
  rw [NonLinear.withX_real] at h1 h2
  simp only [CapstoneVar.coeff, stQ, val, List.getD_cons_succ, List.getD_cons_zero, eval, List.map_cons, List.map_nil, List.prod_cons, List.prod_nil, h1, h2,
    update_self]
  ring

theorem first_isVariable (ρ : String → ℝ) : CapstoneVar.IsVariable envV (fun _ => .add [.sym "n", .num 1]) "n" ρ 1000 5 first stQ 0 where
  ok := first_classify
  ty := rfl
  order := rfl
  nonzero := by
    have d1 := Classify.getDecrement_mk "n" (-1) (by norm_num)
    simp [first, inv1, n2, Classify.decrements, addends, factors, Classify.xDecr, d1]
  first := by
    simp [firstIndex, FirstIndex.inhomDom, FirstIndex.coeffDom, stQ, hasParameters, Functional.findDomain, Functional.bothDom, Functional.exDom,
      envV, has, isPolynomial, isScalarRep, Functional.polyDom, isRatPolynomial, isRatScalarRep, Functional.raise, inv1, n2]
    exact ⟨Int.ceil_le.mpr (by norm_num), Int.ceil_le.mpr (by norm_num)⟩
  searched := by
    intro e he
    have he' : e = .add [.sym "n", .num 1] ∨ e = .mul [inv1, n2] := by
      simpa [relevant, stQ, inv1] using he
    have h1 : has (.sym "n") (.num 1) = false ∧ eval (realInterp 0) ρ (.num 1) ≠ 0 := ⟨by simp [has], by simp [eval]⟩
    have key : ∀ q : ℚ, 0 < q → has (.sym "n") (.add [.sym "n", .num q]) = true ∧ isPolynomial "n" (.add [.sym "n", .num q]) = true ∧
        isRatPolynomial "n" (.add [.sym "n", .num q]) = true ∧ Functional.FindsZeros 0 ρ "n" envV (.add [.sym "n", .num q]) := by
      intro q hq
      refine ⟨by simp [has], by simp [isPolynomial, isScalarRep], by simp [isRatPolynomial, isRatScalarRep], ?_⟩
      have hne : ∀ m : ℕ, val 0 ρ "n" (.add [.sym "n", .num q]) m ≠ 0 := by
        intro m
        have : (0 : ℝ) < q := by exact_mod_cast hq
        simp only [val, eval, List.map_cons, List.map_nil, List.sum_cons, List.sum_nil, update_self]
        positivity
      by_cases h : (.add [.sym "n", .num q] : Expr) = n2
      · exact ⟨[-2], by simp [envV, h], fun m hm => absurd hm (hne m)⟩
      · exact ⟨[-1], by simp [envV, h], fun m hm => absurd hm (hne m)⟩
    rcases he' with rfl | rfl
    · rintro q (rfl | rfl)
      · exact .inr (key 1 (by norm_num))
      · exact .inl h1
    · have e1 : envV.num (.mul [inv1, n2]) = n2 := by simp [envV]
      have e2 : envV.den (.mul [inv1, n2]) = .add [.sym "n", .num 1] := by simp [envV]
      rintro q (rfl | rfl)
      · rw [e1]; exact .inr (key 2 (by norm_num))
      · rw [e2]; exact .inr (key 1 (by norm_num))
  quotient := by
    intro N _
    rw [coeff_valQ]
    have e1 : envV.num (CapstoneVar.coeff stQ) = n2 := by simp [envV, CapstoneVar.coeff, stQ]
    have e2 : envV.den (CapstoneVar.coeff stQ) = .add [.sym "n", .num 1] := by simp [envV, CapstoneVar.coeff, stQ]
    rw [e1, e2]
    simp [val, n2, eval]

/-- `(n+2)/2`, the product of the coefficients. -/
def prodQ : Expr := .mul [.num (1 / 2), n2]

/-- `n/(n+2)`, the sum. -/
def sumQ : Expr := .mul [.sym "n", .pow n2 (.num (-1))]

/-- Simplifications that change nothing. -/
def linQ : SolveLin.Ops where
  expand := id
  epSimp := id
  simp := id
  auto := id
  degree := fun _ => 0
  coeff := fun e _ => e
  lsolve := fun _ _ => none
  sumPoly := id
  unknown := fun _ i => exU i
  rw := id
  collect := fun _ e => e
  product := fun _ _ => prodQ
  sumOrder1 := fun _ _ => sumQ

theorem linQ_ok (ρ : String → ℝ) : OpsOk (realInterp 0) linQ "n" (fun _ => False) ρ 0 1 where
  expand := CapstoneReduce.keeps_id
  simp := CapstoneReduce.keeps_id
  epSimp := CapstoneReduce.keeps_id
  rw := CapstoneReduce.keepsX_id
  collect := fun _ => CapstoneReduce.keepsX_id
  notB := by simp
  nB := by simp
  ne := fun _ i => SolveLin.exU_ne i
  inj := fun _ => SolveLin.exU_inj
  lsolve := fun S eqs m j vals _ h => by cases h

theorem prod_val (X : ℝ → ℝ) (σ : String → ℝ) : eval (withX (realInterp 0) X) σ prodQ = (σ "n" + 2) / 2 := by
  simp only [prodQ, eval, List.map_cons, List.map_nil, List.prod_cons, List.prod_nil, n2_val]
  push_cast
  ring

theorem sum_val (X : ℝ → ℝ) (σ : String → ℝ) : eval (withX (realInterp 0) X) σ sumQ = σ "n" / (σ "n" + 2) := by
  simp only [sumQ, eval, List.map_cons, List.map_nil, List.prod_cons, List.prod_nil, n2_val]
  rw [show ((-1 : ℚ) : ℝ) = ((-1 : ℤ) : ℝ) by push_cast; rfl, (withX (realInterp 0) X).pw_int, zpow_neg_one]
  ring

theorem first_inhom (ρ : String → ℝ) (U : String → Prop) : Denotes (realInterp 0) "n" U ρ 0 inv1 fun N => ((N : ℝ) + 1)⁻¹ :=
  fun X σ N _ hσ => by rw [inv1_val, hσ.1]

theorem first_varOk (ρ : String → ℝ) : VarOk (realInterp 0) linQ "n" (fun _ => False) ρ 0 (CapstoneVar.coeff stQ) stQ.inhom
    (fun N => val 0 ρ "n" (CapstoneVar.coeff stQ) N) fun N => ((N : ℝ) + 1)⁻¹ where
  simpX := CapstoneReduce.keepsX_id
  shapeProduct := by simp [linQ, prodQ, n2, Shape]
  product := by
    intro X σ N hN hσ
    refine (prod_val X σ).trans ?_
    rw [hσ.1]
    simp only [coeff_valQ]
    clear hN hσ
    induction N with
    | zero => simp
    | succ N ih =>
      rw [Finset.prod_Icc_succ_top (by omega), ← ih]
      push_cast
      have : (N : ℝ) + 1 + 1 ≠ 0 := by positivity
      field_simp
      ring
  shapeSum := by simp [linQ, sumQ, n2, Shape]
  sum := by
    intro s hs X σ N hN hσ
    have hs1 : ∀ i ∈ Finset.Icc (0 + 1) N, s i = 2 / (((i : ℝ) + 1) * (i + 2)) := by
      intro i _
      rw [← hs (fun _ => 0) (update ρ "n" (i : ℝ)) i (by omega) (SolveLin.agrees_self "n" _ ρ i)]
      rw [WeightedAvg.eval_divE]
      show eval _ _ inv1 / eval _ _ prodQ = _
      rw [inv1_val, prod_val, update_self]
      have h1 : (i : ℝ) + 1 ≠ 0 := by positivity
      have h2 : (i : ℝ) + 2 ≠ 0 := by positivity
      field_simp
    refine (sum_val X σ).trans ?_
    rw [hσ.1]
    refine Eq.trans ?_ (Finset.sum_congr rfl hs1).symm
    clear hN hσ hs1
    induction N with
    | zero => simp
    | succ N ih =>
      rw [Finset.sum_Icc_succ_top (by omega), ← ih]
      push_cast
      have h1 : (N : ℝ) + 2 ≠ 0 := by positivity
      have h2 : (N : ℝ) + 1 + 2 ≠ 0 := by positivity
      have h3 : (N : ℝ) + 1 + 1 ≠ 0 := by positivity
      field_simp
      ring

theorem first_same (ρ : String → ℝ) : SameRhs "n" ρ waQ first := by
  intro X N hN
  show _ = eval _ _ (WeightedAvg.firstOrderRhs "n" wQ (.num 1))
  rw [WeightedAvg.eval_firstOrderRhs _ (by simp [idxNe, wQ, inv]) (by simp [idxNe])]
  simp only [wQ_val, update_self]
  have hN' : (N : ℝ) ≠ 0 := by positivity
  have h1 : (N : ℝ) + 1 ≠ 0 := by positivity
  have hx : eval (withX (realInterp 0) X) (update ρ "n" (N : ℝ)) (.fn .x [.add [.sym "n", .num (-1)]]) = X ((N : ℝ) - 1) := by
    simp only [eval, List.map_cons, List.map_nil, withX, List.sum_cons, List.sum_nil, update_self]
    push_cast
    ring_nf
  have hx2 : (withX (realInterp 0) X).fn .x [(N : ℝ) - 1] = X ((N : ℝ) - 1) := rfl
  rw [hx2]
  simp only [first, eval, List.map_cons, List.map_nil, List.prod_cons, List.prod_nil, List.sum_cons, List.sum_nil, inv1_val, n2_val, update_self] at hx ⊢
  rw [hx]
  push_cast
  field_simp
  ring

/-- The answer for the associated recurrence: `(n+2)/2 (n/(n+2) + x(0))`. -/
def solQ : Expr := (solveLinear linQ "n" first inv1 0 1 false (.mul [inv1, n2]) none none).getD (.num 0)

theorem firstSolvedQ (ρ : String → ℝ) : FirstSolved "n" (fun _ => False) ρ waQ (some solQ) :=
  C154_first_variable (first_isVariable ρ) (linQ_ok ρ) (first_varOk ρ) (first_inhom ρ _) (first_same ρ)

/-! ### The object -/

/-- The library. -/
noncomputable def engine : Engine where
  classify := fun e => (.success, ⟨.weighted, 0, 0, 0⟩, e)
  solve := fun _ _ _ => .ok (computeWA "n" waQ solQ)
  bound := fun _ _ _ => .error .tooComplex
  onIC := fun _ info m x => (OnIC.evaluate CapstoneVar.icOps "n" info ⟨0, .num 0, .num 0⟩ wQ (.num 1) 0 (.num 0) m x).getD (.num 0)
  rename := id

theorem wiredQ : Wired engine CapstoneVar.icOps "n" rhsQ waQ (some solQ) where
  classify := rfl
  solve := fun _ => rfl
  onIC := ⟨⟨0, .num 0, .num 0⟩, wQ, .num 1, 0, .num 0, fun _ _ => rfl⟩

theorem assumedQ (ρ : String → ℝ) : Assumed engine "n" (fun _ => False) ρ rhsQ waQ (some solQ) where
  rename := CapstoneReduce.keepsX_id
  renameIC := fun _ _ _ _ _ => rfl

/-- The history: compute, give `x(0) = 5`, ask, then give `x(0) = 3` instead. -/
noncomputable def history : RecState :=
  ((((RecState.new rhsQ).step engine .computeExact).step engine (.setICs [(0, .num 5)])).step engine .getExact).step engine (.setICs [(0, .num 3)])

theorem history_ics : history.ics = [(0, .num 3)] := by rfl

theorem history_answer : (query engine .exact history).2 =
    some (engine.onIC rhsQ ⟨.weighted, 0, 0, 0⟩ [(0, .num 3)] (computeWA "n" waQ solQ)) := by rfl

/-- The sequence `4 n + 3`. -/
theorem solvesQ (ρ : String → ℝ) : SolvesAt (realInterp 0) "n" rhsQ ρ (fun t => 4 * t + 3) 1 := by
  refine (WeightedExtract.C153_solutions_partial (WeightedExtract.sumMeaning_real 0) classifyWAQ sumOfQ (keepQ ρ) firstPowerQ _).mpr ?_
  intro N hN
  replace hN : 0 < N := hN
  unfold WeightedAvg.WAAt
  simp only [rQ, wQ_val, update_self, Bool.false_eq_true, if_false, eval]
  obtain ⟨M, rfl⟩ : ∃ M, N = M + 1 := ⟨N - 1, by omega⟩
  have hs : ∑ k ∈ Finset.Icc 0 (M + 1 - 1), (4 * (k : ℝ) + 3) = 2 * ((M : ℝ) + 1) ^ 2 + (M + 1) := by
    rw [Nat.add_sub_cancel]
    clear hN
    induction M with
    | zero => norm_num
    | succ M ih => rw [Finset.sum_Icc_succ_top (by omega), ih]; push_cast; ring
  rw [hs]
  push_cast
  have : (M : ℝ) + 1 ≠ 0 := by positivity
  field_simp
  ring

/-- The hypotheses of `C154_answer_is_solution` are met by `x(n) = 2/n sum(k, 0, n-1, x(k)) + 1`, after a history with another initial condition: with
`x(0) = 3` the answer has, at every `N > 0`, the value `4 N + 3`. -/
theorem C154_nonvacuous (ρ : String → ℝ) : RecReach engine rhsQ history ∧ ∃ v, (query engine .exact history).2 = some v ∧
    ∀ N : ℕ, 0 < N → ∀ Y, eval (withX (realInterp 0) Y) (update ρ "n" (N : ℝ)) v = 4 * N + 3 := by
  have hr : RecReach engine rhsQ history := .step _ (.step _ (.step _ (.step _ .new)))
  refine ⟨hr, _, history_answer, fun N hN Y => ?_⟩
  refine (C154_answer_is_solution (isWeightedQ ρ) (firstSolvedQ ρ) wiredQ (assumedQ ρ) hr history_answer (solvesQ ρ) hN).2
    (by rw [history_ics]; simp) (.num 3) ?_ (by simp [rQ, eval]) Y
  rw [history_ics]
  exact ⟨by simp [ICMap.Sorted], by simp [rQ], by simp [ICMap.keys, rQ], ⟨by simp [Shape], by intro Y ρ t v _; simp [eval]⟩⟩

end Purrs.CapstoneWA
