import Verif.Props.CapstoneVar
import Verif.Props.CapstoneLinearEx
import Verif.Props.CapstoneReduceEx

/-!
# A case meeting the hypotheses of C151: `x(n) = n x(n-1) + n!`
-/

set_option linter.unusedSectionVars false

namespace Purrs.CapstoneVar

open Function (update update_of_ne update_self)
open OrderRed (withX eval_noX SolvesAt IsSolution idxNe)
open Classify (St classify)
open OnIC (LinearAt Shape Fresh LsolveOk)
open SolveLin (Agrees Denotes Unknown OpsOk KeepsX VarOk ICs solveLinear exU)
open Capstone (SoundLinear GoodICs Fits LastKeys)
open FirstIndex (firstIndex Searched relevant)
open Functional (Env)
open Bounds (val)
open RecState

/-- `n!`. -/
def fac : Expr := .fn .factorial [.sym "n"]

/-- `n x(n-1) + n!`. -/
def exRhs : Expr := .add [.mul [.sym "n", .fn .x [.add [.sym "n", .num (-1)]]], fac]

/-- What the classification finds. -/
def exSt : St := ⟨.linVar, fac, 1, [.num 0, .sym "n"], 1, []⟩

theorem ex_classify : classify "n" 1000 exRhs = .ok exSt := by
  have d1 := Classify.getDecrement_mk "n" (-1) (by norm_num)
  have o1 : Classify.computeOrder 1000 (- -1) 0 = .ok (1, 1) := by rfl
  have h1 : Classify.summand "n" 1000 0 (.mul [.sym "n", .fn .x [.add [.sym "n", .num (-1)]]]) Classify.initSt
      = .ok ⟨.linVar, .num 0, 1, [.num 0, .sym "n"], 1, []⟩ := by
    have hl : Classify.findNonLinear "n" (.mul [.sym "n", .fn .x [.add [.sym "n", .num (-1)]]]) = .linear := by
      simp [Classify.findNonLinear, Classify.kindOf, Classify.nlStep, hasXOf, Classify.isXn]
      split <;> simp
    simp only [Classify.summand, hl, Classify.product, List.foldr_cons, List.foldr_nil, Classify.factorStep, Classify.factorX, d1, o1, Classify.initSt]
    simp [has, hasParameters, Classify.isAdd2, Classify.newGcd, Classify.insertCoeff, Classify.isWeightedSum,
      Classify.finishProduct, mulE]
  have h2 : Classify.summand "n" 1000 1 fac ⟨.linVar, .num 0, 1, [.num 0, .sym "n"], 1, []⟩ = .ok exSt := by
    simp [Classify.summand, Classify.findNonLinear, Classify.kindOf, Classify.single, Classify.isWeightedSum, Classify.addInhom, addE, fac, hasXOf, exSt]
  simp only [exRhs, Classify.classify, addends, Classify.loopFrom, h1, h2]

/-- Numerator the expression itself, denominator 1, the root 0. -/
def exEnv : Env := ⟨id, fun _ => .num 1, fun _ => some [0]⟩

theorem ex_isVariable (ρ : String → ℝ) : IsVariable exEnv (fun _ => .num 1) "n" ρ 1000 5 exRhs exSt 0 where
  ok := ex_classify
  ty := rfl
  order := rfl
  nonzero := by
    have d1 := Classify.getDecrement_mk "n" (-1) (by norm_num)
    simp [exRhs, fac, Classify.decrements, addends, factors, Classify.xDecr, d1]
  first := by
    simp [firstIndex, FirstIndex.inhomDom, FirstIndex.coeffDom, exSt, fac, hasParameters, Functional.findDomain, Functional.bothDom, Functional.exDom,
      exEnv, has, isPolynomial, isScalarRep, Functional.polyDom, isRatPolynomial, isRatScalarRep, Functional.raise]
  searched := by
    intro e he
    have he' : e = .num 1 ∨ e = .sym "n" := by
      simpa [relevant, exSt, fac] using he
    have h1 : has (.sym "n") (.num 1) = false ∧ eval (realInterp 0) ρ (.num 1) ≠ 0 := ⟨by simp [has], by simp [eval]⟩
    rcases he' with rfl | rfl
    · rintro q (rfl | rfl) <;> exact .inl h1
    · rintro q (rfl | rfl)
      · right
        refine ⟨by simp [exEnv, has], by simp [exEnv, isPolynomial], by simp [exEnv, isRatPolynomial], [0], rfl, fun m hm => ?_⟩
        have : (m : ℝ) = 0 := by simpa [val, exEnv, eval] using hm
        have : m = 0 := by exact_mod_cast this
        simp [this]
      · exact .inl h1
  quotient := by
    intro N _
    simp [exEnv, val, eval]

/-- Simplifications that change nothing; the product of the coefficient is `n!`, the sum `n`. -/
def exOps : SolveLin.Ops where
  expand := id
  epSimp := id
  simp := id
  auto := id
  degree := fun _ => 0
  coeff := fun e _ => e
  lsolve := fun _ _ => none
  sumPoly := id
  unknown := fun _ i => exU i
  rw := id
  collect := fun _ e => e
  product := fun _ _ => fac
  sumOrder1 := fun _ _ => .sym "n"

theorem ex_opsOk (ρ : String → ℝ) (f k : ℕ) : OpsOk (realInterp 0) exOps "n" (fun _ => False) ρ f k where
  expand := CapstoneReduce.keeps_id
  simp := CapstoneReduce.keeps_id
  epSimp := CapstoneReduce.keeps_id
  rw := CapstoneReduce.keepsX_id
  collect := fun _ => CapstoneReduce.keepsX_id
  notB := by simp
  nB := by simp
  ne := fun _ i => SolveLin.exU_ne i
  inj := fun _ => SolveLin.exU_inj
  lsolve := fun S eqs m j vals _ h => by cases h

theorem fac_val (X : ℝ → ℝ) (σ : String → ℝ) (N : ℕ) (h : σ "n" = N) : eval (withX (realInterp 0) X) σ fac = (N.factorial : ℝ) := by
  rw [NonLinear.withX_real]
  simp only [fac, eval, List.map_cons, List.map_nil, h]
  exact Real.Gamma_nat_eq_factorial N

theorem fac_shape : Shape (fun _ => False) (fun _ => False) fac := by
  rw [fac, Shape]
  exact ⟨by simp, by simp [Shape]⟩

theorem ex_div (X : ℝ → ℝ) (σ : String → ℝ) (N : ℕ) (h : σ "n" = N) : eval (withX (realInterp 0) X) σ (WeightedAvg.divE fac fac) = 1 := by
  rw [WeightedAvg.divE, eval_mulE, eval_powE, fac_val X σ N h]
  simp only [eval]
  rw [show ((-1 : ℚ) : ℝ) = ((-1 : ℤ) : ℝ) by push_cast; rfl, (withX (realInterp 0) X).pw_int, zpow_neg_one]
  exact mul_inv_cancel₀ (by positivity)

theorem ex_coeff (ρ : String → ℝ) (N : ℕ) : val 0 ρ "n" (coeff exSt) N = N := by
  simp [coeff, exSt, val, eval]

theorem ex_inhom (ρ : String → ℝ) (U : String → Prop) : Denotes (realInterp 0) "n" U ρ 0 fac fun N => (N.factorial : ℝ) :=
  fun X σ N _ hσ => fac_val X σ N hσ.1

theorem ex_varOk (ρ : String → ℝ) :
    VarOk (realInterp 0) exOps "n" (fun _ => False) ρ 0 (coeff exSt) exSt.inhom (fun N => val 0 ρ "n" (coeff exSt) N) fun N => (N.factorial : ℝ) where
  simpX := CapstoneReduce.keepsX_id
  shapeProduct := fac_shape
  product := by
    intro X σ N hN hσ
    refine (fac_val X σ N hσ.1).trans ?_
    simp only [ex_coeff]
    clear hN hσ
    induction N with
    | zero => simp
    | succ N ih => rw [Finset.prod_Icc_succ_top (by omega), ← ih, Nat.factorial_succ]; push_cast; ring
  shapeSum := by simp [exOps, Shape]
  sum := by
    intro s hs X σ N hN hσ
    have hs1 : ∀ i ∈ Finset.Icc (0 + 1) N, s i = 1 := by
      intro i _
      rw [← hs (fun _ => 0) (update ρ "n" (i : ℝ)) i (by omega) (SolveLin.agrees_self "n" _ ρ i)]
      exact ex_div _ _ i (by simp)
    show eval _ _ (.sym "n") = ∑ i ∈ Finset.Icc (0 + 1) N, s i
    rw [Finset.sum_congr rfl hs1]
    simp [eval, hσ.1]

/-- The answer of the solver: `n! (n + x(0))`. -/
def sol : Expr := (solveLinear exOps "n" exRhs fac 0 1 false (.sym "n") none none).getD (.num 0)

theorem sol_spec : solveLinear exOps "n" exRhs fac 0 1 false (.sym "n") none none = some sol := rfl

/-- The operations for the initial conditions. -/
noncomputable def icOps : OnIC.Ops := OnIC.idealOps (realInterp 0) "n" fun _ => False

/-- The library. -/
noncomputable def engine : Engine where
  classify := fun e => (.success, ⟨.linVar, 1, 0, 0⟩, e)
  solve := fun _ _ _ => .ok sol
  bound := fun _ _ _ => .error .tooComplex
  onIC := fun _ info m x => (OnIC.evaluate icOps "n" info ⟨0, .num 0, .num 0⟩ (.num 0) (.num 0) 0 (.num 0) m x).getD (.num 0)
  rename := id

theorem ex_wired : Wired engine exOps icOps "n" exRhs exSt 0 where
  classify := rfl
  solve := fun _ => rfl
  onIC := ⟨⟨0, .num 0, .num 0⟩, .num 0, .num 0, 0, .num 0, fun _ _ => rfl⟩

theorem ex_returned {x : Expr} (h : Returned engine exOps "n" exRhs exSt 0 x) : x = sol := by
  induction h with
  | solve h => exact (Option.some.inj h).symm
  | rename _ ih => exact ih

theorem sol_eq : sol = .mul [fac, .add [.sym "n", Verify.xAt 0]] := by rfl

theorem ex_assumed (ρ : String → ℝ) : Assumed engine exOps icOps "n" (fun _ => False) ρ exRhs exSt 0 fun N => (N.factorial : ℝ) where
  ops := ex_opsOk ρ 0 1
  var := ex_varOk ρ
  inhom := ex_inhom ρ _
  rename := CapstoneReduce.keepsX_id
  fresh := by
    intro x hx
    rw [ex_returned hx]
    refine ⟨OnIC.exFresh_inj, CapstoneLinear.fresh_n, by simp, fun i => ?_⟩
    have hn : ¬ OnIC.exFresh i = "n" := CapstoneLinear.fresh_n i
    rw [sol_eq]
    show isScalarRep (OnIC.exFresh i) _ = true
    simp [isScalarRep, fac, Verify.xAt, Ne.symm hn]
  renameIC := fun _ _ _ _ _ => rfl
  lsolve := OnIC.ideal_lsolve (realInterp 0) "n" fun _ => False
  simp := fun _ _ _ _ _ _ _ => rfl

/-- The history: compute, give `x(0) = 5`, ask, then give `x(2) = 7` instead. -/
noncomputable def history : RecState :=
  ((((RecState.new exRhs).step engine .computeExact).step engine (.setICs [(0, .num 5)])).step engine .getExact).step engine (.setICs [(2, .num 7)])

theorem history_ics : history.ics = [(2, .num 7)] := by rfl

theorem history_answer : (query engine .exact history).2 = some (engine.onIC exRhs ⟨.linVar, 1, 0, 0⟩ [(2, .num 7)] sol) := by rfl

theorem ex_solution (ρ : String → ℝ) : IsSolution (realInterp 0) "n" exRhs ρ sol 0 1 :=
  (returned (ex_isVariable ρ) (ex_assumed ρ) (.solve sol_spec)).2

theorem ex_goodICs : GoodICs (realInterp 0) engine icOps "n" (fun _ => False) exRhs (Returned engine exOps "n" exRhs exSt 0) [(2, .num 7)] where
  sorted := by simp [ICMap.Sorted]
  small := by simp [ICMap.keys]
  large := ⟨2, by simp [ICMap.keys], by simp [engine]⟩
  value := by
    intro q hq
    simp only [List.mem_cons, List.not_mem_nil, or_false] at hq
    subst hq
    exact ⟨by simp [Shape], by intro Y ρ t v _; simp [eval]⟩
  answered := by
    intro x hx
    rw [ex_returned hx]
    refine OnIC.ideal_answers (vals := [.num (3 / 2)]) ⟨rfl, by simp [Shape], by simp [OnIC.Indep, eval], ?_⟩
    intro Y τ σ _ hσ p hp
    have hs := (returned (ex_isVariable σ) (ex_assumed σ) (.solve sol_spec)).1
    have h0 : σ (OnIC.exFresh 0) = 3 / 2 := by
      simpa [eval] using hσ (OnIC.exFresh 0, .num (3 / 2)) (by simp [engine, icOps, OnIC.idealOps])
    have hlin := (sound (ex_isVariable σ) ex_wired (ex_assumed σ)).linear
    obtain ⟨X, hX, hXv⟩ := OnIC.forward_exists hlin.order fun _ => (3 / 2 : ℝ)
    have hX0 : X ((0 : ℕ) : ℝ) = 3 / 2 := hXv 0 (by simp [engine])
    have step : ∀ N : ℕ, X ((N + 1 : ℕ) : ℝ) = (N + 1) * X (N : ℝ) + (N + 1).factorial := by
      intro N
      rw [hX (N + 1) (by simp [engine]), lin (ex_isVariable σ) (ex_inhom σ (Unknown exOps)) X (by omega), ex_coeff]
      push_cast
      rfl
    have hX2 : X ((2 : ℕ) : ℝ) = 7 := by
      rw [step 1, step 0, hX0]
      norm_num [Nat.factorial]
    obtain ⟨s1, s2⟩ := OnIC.abstract_val (I := realInterp 0) (O := icOps) (B := fun _ => False) (by simp) X 0 1 hs
    have s3 : Shape (fun _ => False) (fun _ => False) (OnIC.abstractIC icOps 0 1 sol) := by
      refine OnIC.shape_mono ?_ s1
      rintro q ⟨⟨i, hi, rfl⟩, h⟩
      exact h i hi rfl
    have hp' : p ∈ [(substitute (.sym "n") (.num ((2 : ℕ) : ℚ)) (OnIC.abstractIC icOps 0 1 sol), Expr.num 7)] := hp
    rw [List.mem_singleton] at hp'
    subst hp'
    have e1 := EvalRules.eval_substNum (I := withX (realInterp 0) Y) "n" (SolveLin.shape_idx (n := "n") (by simp) s3) ((2 : ℕ) : ℚ) σ
    simp only
    rw [e1, eval_noX (realInterp 0) Y X _ (OnIC.shape_hasX s3), s2 _ ?_]
    · have := ex_solution σ X hX 2 (by omega)
      rw [hX2] at this
      simpa [eval] using this
    · intro i hi
      have : i = 0 := by omega
      subst this
      exact (update_of_ne (CapstoneLinear.fresh_n 0) _ _).trans (h0.trans (by simpa using hX0.symm))

/-- The hypotheses of `C151_answer_is_solution` are met by `x(n) = n x(n-1) + n!`, after a history with another initial condition: with `x(2) = 7` the
answer has, at 3, the value `3 * 7 + 6`. -/
theorem C151_nonvacuous (ρ : String → ℝ) : RecReach engine exRhs history ∧ ∃ v, (query engine .exact history).2 = some v ∧
    ∀ Y, eval (withX (realInterp 0) Y) (update ρ "n" ((3 : ℕ) : ℝ)) v = 27 := by
  have hr : RecReach engine exRhs history := .step _ (.step _ (.step _ (.step _ .new)))
  refine ⟨hr, _, history_answer, fun Y => ?_⟩
  obtain ⟨j, -, hj, ⟨X, hX⟩, hv⟩ := (C151_answer_is_solution (ex_isVariable ρ) ex_wired (ex_assumed ρ) hr history_answer).2
    (by rw [history_ics]; simp) (by rw [history_ics]; exact ex_goodICs)
  obtain rfl : j = 2 := hj.unique (by omega) (by rw [history_ics]; constructor <;> simp [ICMap.keys])
  rw [hv X hX 3 (by omega)]
  rw [history_ics] at hX
  have h2 : X ((2 : ℕ) : ℝ) = 7 := by simpa [eval] using hX.2 (2, .num 7) (by simp)
  rw [hX.1 3 (by omega), lin (ex_isVariable ρ) (ex_inhom ρ (Unknown exOps)) X (by omega), ex_coeff]
  norm_num at h2 ⊢
  rw [h2]
  norm_num [Nat.factorial]

end Purrs.CapstoneVar
