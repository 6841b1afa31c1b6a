import Verif.Props.CapstoneLinear
import Verif.Props.SolveLinearEx
import Verif.Props.OnICMore
import Verif.Props.Scalar

/-!
# A case meeting the hypotheses of C148: `x(n) = x(n-1) + 2 x(n-2) + 2`
-/

set_option linter.unusedSectionVars false

namespace Purrs.CapstoneLinear

open Function (update update_of_ne update_self)
open OrderRed (withX eval_noX SolvesAt IsSolution idxNe)
open Classify (St classify)
open OnIC (LinearAt Shape Fresh LsolveOk)
open SolveLin (exRhs exHomo exU exRoots exA exVals exSpecial exOps ICs solveLinear decomposition multOf backSub generalE ansatz)
open Capstone (SoundLinear GoodICs Fits LastKeys)
open Polynomial Purrs.Exact RecState

/-- The answer of the solver. -/
def sol : Expr := (solveLinear exOps "n" exRhs (.num 2) 0 2 true (.num 1) (some exRoots) none).getD (.num 0)

theorem sol_spec : solveLinear exOps "n" exRhs (.num 2) 0 2 true (.num 1) (some exRoots) none = some sol := by
  obtain ⟨e, he⟩ := SolveLin.ex_answer
  rw [sol, he, Option.getD_some]

/-- What the classification finds. -/
def exSt : St := ⟨.linConst, .num 2, 2, [.num 0, .num 1, .num 2], 1, []⟩

theorem ex_form : exRhs = .add [.fn .x [.add [.sym "n", .num (-1)]], .mul [.num 2, .fn .x [.add [.sym "n", .num (-2)]]], .num 2] := by
  rfl

theorem ex_classify : classify "n" 1000 exRhs = .ok exSt := by
  have d1 := Classify.getDecrement_mk "n" (-1) (by norm_num)
  have d2 := Classify.getDecrement_mk "n" (-2) (by norm_num)
  have o1 : Classify.computeOrder 1000 (- -1) 0 = .ok (1, 1) := by rfl
  have o2 : Classify.computeOrder 1000 (- -2) 1 = .ok (2, 2) := by rfl
  have h1 : Classify.summand "n" 1000 0 (.fn .x [.add [.sym "n", .num (-1)]]) Classify.initSt
      = .ok ⟨.linConst, .num 0, 1, [.num 0, .num 1], 1, []⟩ := by
    simp only [Classify.summand, Classify.findNonLinear, Classify.kindOf, Classify.single, Classify.singleX, d1, Classify.initSt, o1]
    simp [hasXOf, has, hasParameters, Classify.isAdd2, Classify.St.fresh, Classify.newGcd, Classify.insertCoeff]
  have h2 : Classify.summand "n" 1000 1 (.mul [.num 2, .fn .x [.add [.sym "n", .num (-2)]]]) ⟨.linConst, .num 0, 1, [.num 0, .num 1], 1, []⟩
      = .ok ⟨.linConst, .num 0, 2, [.num 0, .num 1, .num 2], 1, []⟩ := by
    have hl : Classify.findNonLinear "n" (.mul [.num 2, .fn .x [.add [.sym "n", .num (-2)]]]) = .linear := by
      simp [Classify.findNonLinear, Classify.kindOf, Classify.nlStep, hasXOf, Classify.isXn]
      split <;> simp
    simp only [Classify.summand, hl, Classify.product, List.foldr_cons, List.foldr_nil, Classify.factorStep, Classify.factorX, d2, o2]
    simp [has, hasParameters, Classify.isAdd2, Classify.newGcd, Classify.insertCoeff, Classify.isWeightedSum,
      Classify.finishProduct, mulE]
  have h3 : Classify.summand "n" 1000 2 (.num 2) ⟨.linConst, .num 0, 2, [.num 0, .num 1, .num 2], 1, []⟩ = .ok exSt := by
    simp [Classify.summand, Classify.findNonLinear, Classify.kindOf, Classify.single, Classify.isWeightedSum, Classify.addInhom, addE, exSt]
  rw [ex_form]
  simp only [Classify.classify, addends, Classify.loopFrom, h1, h2, h3]

theorem ex_isLinear : IsLinear "n" 1000 exRhs exSt [0, 1, 2] where
  ok := ex_classify
  ty := rfl
  coeffs := rfl
  last := by simp [exSt]
  nonzero := by
    have d1 := Classify.getDecrement_mk "n" (-1) (by norm_num)
    have d2 := Classify.getDecrement_mk "n" (-2) (by norm_num)
    rw [ex_form]
    simp [Classify.decrements, addends, factors, Classify.xDecr, d1, d2]
  gcd := rfl

/-- The operations for the initial conditions. -/
noncomputable def icOps : OnIC.Ops := OnIC.idealOps ratInterp "n" fun _ => False

/-- The library. -/
noncomputable def engine : Engine where
  classify := fun e => (.success, ⟨.linConst, 2, 0, 0⟩, e)
  solve := fun _ _ _ => .ok sol
  bound := fun _ _ _ => .error .tooComplex
  onIC := fun _ info m x => (OnIC.evaluate icOps "n" info ⟨0, .num 0, .num 0⟩ (.num 0) (.num 0) 0 (.num 0) m x).getD (.num 0)
  rename := id

theorem ex_wired : Wired engine exOps icOps "n" exRhs exSt 0 exRoots none where
  classify := rfl
  solve := by
    intro b
    have : solveLinear exOps "n" exRhs exSt.inhom 0 exSt.order true (exSt.coeffs.getD 1 (.num 0)) (some exRoots) none = some sol := sol_spec
    rw [this]
    rfl
  onIC := ⟨⟨0, .num 0, .num 0⟩, .num 0, .num 0, 0, .num 0, fun _ _ => rfl⟩

theorem ex_returned {x : Expr} (h : Returned engine exOps "n" exRhs exSt 0 exRoots none x) : x = sol := by
  induction h with
  | solve h =>
    have : some _ = some sol := h.symm.trans sol_spec
    exact Option.some.inj this
  | rename _ ih => exact ih

theorem fresh_ne (i j : ℕ) : OnIC.exFresh i ≠ exU j := by
  intro h
  have h1 := congrArg String.toList h
  rw [OnIC.exFresh, exU, String.toList_ofList, String.toList_ofList] at h1
  have h2 : 'u' ∈ List.replicate i '0' := by
    rw [List.replicate_succ, List.cons.injEq] at h1
    rw [h1.2]; simp
  have := List.eq_of_mem_replicate h2
  exact absurd this (by decide)

theorem fresh_n (i : ℕ) : OnIC.exFresh i ≠ "n" := OnIC.ex_fresh.ne_n i

theorem scalar_backSub {m : String} (u : ℕ → String) {vals : List Expr} {e : Expr} (hv : ∀ v ∈ vals, isScalarRep m v = true)
    (he : isScalarRep m e = true) : isScalarRep m (backSub u vals e) = true := by
  rw [backSub]
  have : ∀ l : List ℕ, (∀ i ∈ l, i < vals.length) →
      isScalarRep m (l.foldr (fun i e => substitute (.sym (u i)) (vals.getD i (.num 0)) e) e) = true := by
    intro l
    induction l with
    | nil => exact fun _ => he
    | cons i l ih =>
      intro h
      refine scalar_substitute ?_ (ih fun j hj => h j (by simp [hj]))
      rw [List.getD_eq_getElem _ _ (h i (by simp))]
      exact hv _ (List.getElem_mem _)
  exact this _ (by simp)

theorem sol_eq : sol = backSub exU exVals (generalE "n" exU exRoots 0 (addE (.num 0) exSpecial)) := by
  have h1 := sol_spec.symm.trans SolveLin.ex_answer_eq
  rw [Option.some.inj h1]
  cases backSub exU exVals (generalE "n" exU exRoots 0 (addE (.num 0) exSpecial)) <;> rfl

theorem sol_scalar (i : ℕ) : isScalarRep (OnIC.exFresh i) sol = true := by
  have hnum : ∀ q, isScalarRep (OnIC.exFresh i) (.num q) = true := fun q => by simp [isScalarRep]
  have hU : ∀ j, isScalarRep (OnIC.exFresh i) (.sym (exU j)) = true := fun j => by simp [isScalarRep, (fresh_ne i j).symm]
  have hn : isScalarRep (OnIC.exFresh i) (.sym "n") = true := by simp [isScalarRep, (fresh_n i).symm]
  have hx : ∀ k, isScalarRep (OnIC.exFresh i) (Verify.xAt k) = true := fun k => by simp [isScalarRep, Verify.xAt]
  have hA := @SimplifySum.scalar_addE (OnIC.exFresh i)
  have hM := @SimplifySum.scalar_mulE (OnIC.exFresh i)
  have hP := @scalar_powE (OnIC.exFresh i)
  have hsp : isScalarRep (OnIC.exFresh i) exSpecial = true := by
    refine scalar_backSub _ (by simp [isScalarRep]) ?_
    have hg : isScalarRep (OnIC.exFresh i) (SolveLin.genericPoly "n" exU 0) = true := by
      rw [SolveLin.genericPoly, List.range_one, List.foldl_cons, List.foldl_nil]
      exact hA (hnum 0) (hM (hP hn (hnum _)) (hU _))
    exact hM hg (hP (hnum _) hn)
  rw [sol_eq]
  refine scalar_backSub _ ?_ ?_
  · intro v hv
    simp only [exVals, List.mem_cons, List.not_mem_nil, or_false] at hv
    rcases hv with rfl | rfl
    · exact hM (hnum _) (hA (hA (hx _) (hx _)) (hnum _))
    · exact hM (hnum _) (hA (hA (hM (hnum _) (hx _)) (hM (hnum _) (hx _))) (hnum _))
  · exact hA (hA (hA (hnum 0) hsp) (hM (hM (hU _) (hP (hnum _) hn)) (hP hn (hnum _)))) (hM (hM (hU _) (hP (hnum _) hn)) (hP hn (hnum _)))

theorem ex_coeffs : (fun i => (([0, 1, 2].getD i 0 : ℚ) : ℚ)) 1 = exA 1 ∧ (fun i => (([0, 1, 2].getD i 0 : ℚ) : ℚ)) 2 = exA 2 := by
  simp [exA]

theorem ex_assumed (ρ : String → ℚ) : Assumed ratInterp engine exOps icOps "n" (fun _ => False) ρ exRhs exSt [0, 1, 2] 0 exRoots none
    (fun _ => 2) (fun e => if e = .num 2 then 2 else -1) (fun _ => 1) (fun _ => C 2) where
  ops := SolveLin.ex_opsOk ρ
  inhom := (SolveLin.ex_recIs ρ).inhomVal
  shape := (SolveLin.ex_recIs ρ).shape
  auto := (SolveLin.ex_recIs ρ).auto
  out := (SolveLin.ex_recIs ρ).out
  rootsOk := by
    have h := SolveLin.ex_roots ρ
    refine ⟨h.val, h.shape, ?_, h.distinct, h.pos⟩
    have h2 := h.are
    unfold AreRoots charPoly at h2 ⊢
    rw [← h2]
    simp [exSt, Finset.sum_range_succ, exA]
  terms := by
    intro t ht
    have ht' : t ∈ decomposition exOps "n" (.num 2) := ht
    rw [SolveLin.ex_decomposition, List.mem_singleton] at ht'
    subst ht'
    exact SolveLin.ex_termIs ρ
  bases := SolveLin.ex_match
  solved := by
    intro t ht
    have ht' : t ∈ decomposition exOps "n" (.num 2) := ht
    rw [SolveLin.ex_decomposition, List.mem_singleton] at ht'
    subst ht'
    rw [SolveLin.ex_multOf]
    exact SolveLin.ex_termSolved ρ
  noRest := by
    intro t ht
    have ht' : t ∈ decomposition exOps "n" (.num 2) := ht
    rw [SolveLin.ex_decomposition, List.mem_singleton] at ht'
    subst ht'
    rfl
  rename := SolveLin.keepsX_id
  fresh := by
    intro x hx
    rw [ex_returned hx]
    exact ⟨OnIC.exFresh_inj, fresh_n, by simp, sol_scalar⟩
  renameIC := fun _ _ _ _ _ => rfl
  lsolve := OnIC.ideal_lsolve ratInterp "n" fun _ => False
  simp := fun _ _ _ _ _ _ _ => rfl

/-- The history: compute, give `x(0) = 5` and `x(1) = 7`, ask, then give `x(0) = 1` and `x(1) = 3` instead. -/
noncomputable def history : RecState :=
  ((((RecState.new exRhs).step engine .computeExact).step engine (.setICs [(0, .num 5), (1, .num 7)])).step engine .getExact).step engine
    (.setICs [(0, .num 1), (1, .num 3)])

theorem history_ics : history.ics = [(0, .num 1), (1, .num 3)] := by rfl

theorem history_answer : (query engine .exact history).2
    = some (engine.onIC exRhs ⟨.linConst, 2, 0, 0⟩ [(0, .num 1), (1, .num 3)] sol) := by rfl

theorem ex_solution (ρ : String → ℚ) : IsSolution ratInterp "n" exRhs ρ sol 0 2 :=
  (returned ex_isLinear (ex_assumed ρ) (.solve sol_spec)).2

theorem ex_order (ρ : String → ℚ) : OnIC.OrderAtMost ratInterp "n" exRhs ρ 0 2 := by
  have h := (sound ex_isLinear ex_wired (ex_assumed ρ)).linear.order
  exact h

theorem ex_goodICs : GoodICs ratInterp engine icOps "n" (fun _ => False) exRhs (Returned engine exOps "n" exRhs exSt 0 exRoots none)
    [(0, .num 1), (1, .num 3)] where
  sorted := by simp [ICMap.Sorted]
  small := by simp [ICMap.keys]
  large := ⟨1, by simp [ICMap.keys], by simp [engine]⟩
  value := by
    intro q hq
    simp only [List.mem_cons, List.not_mem_nil, or_false] at hq
    rcases hq with rfl | rfl <;> exact ⟨by simp [Shape], by intro Y ρ t v _; simp [eval]⟩
  answered := by
    intro x hx
    rw [ex_returned hx]
    refine OnIC.ideal_answers (vals := [.num 1, .num 3]) ⟨rfl, by simp [Shape], by simp [OnIC.Indep, eval], ?_⟩
    intro Y τ σ _ hσ p hp
    have hs := (returned ex_isLinear (ex_assumed σ) (.solve sol_spec)).1
    have h0 : σ (OnIC.exFresh 0) = 1 := by simpa [eval] using hσ (OnIC.exFresh 0, .num 1) (by simp [engine, List.range_succ, icOps, OnIC.idealOps])
    have h1 : σ (OnIC.exFresh 1) = 3 := by simpa [eval] using hσ (OnIC.exFresh 1, .num 3) (by simp [engine, List.range_succ, icOps, OnIC.idealOps])
    obtain ⟨X, hX, hXv⟩ := OnIC.forward_exists (ex_order σ) fun i => if i = 0 then 1 else 3
    have hX0 : X ((0 : ℕ) : ℚ) = 1 := by simpa using hXv 0 (by omega)
    have hX1 : X ((1 : ℕ) : ℚ) = 3 := by simpa using hXv 1 (by omega)
    obtain ⟨s1, s2⟩ := OnIC.abstract_val (I := ratInterp) (O := icOps) (B := fun _ => False) (by simp) X 0 2 hs
    have s3 : Shape (fun _ => False) (fun _ => False) (OnIC.abstractIC icOps 0 2 sol) := by
      refine OnIC.shape_mono ?_ s1
      rintro q ⟨⟨i, hi, rfl⟩, h⟩
      exact h i hi rfl
    have key : ∀ N : ℕ, eval (withX ratInterp Y) σ (substitute (.sym "n") (.num (N : ℚ)) (OnIC.abstractIC icOps 0 2 sol)) = X (N : ℚ) := by
      intro N
      have e1 := EvalRules.eval_substNum (I := withX ratInterp Y) "n" (SolveLin.shape_idx (n := "n") (by simp) s3) (N : ℚ) σ
      rw [e1, eval_noX ratInterp Y X _ (OnIC.shape_hasX s3), s2 _ ?_, ← ex_solution σ X hX N (by omega)]
      · norm_num
      · intro i hi
        have : σ (icOps.fresh i) = X ((0 + i : ℕ) : ℚ) := by
          interval_cases i
          · exact h0.trans hX0.symm
          · exact h1.trans hX1.symm
        exact (update_of_ne (fresh_n i) _ _).trans this
    have hp' : p ∈ [(substitute (.sym "n") (.num ((0 : ℕ) : ℚ)) (OnIC.abstractIC icOps 0 2 sol), Expr.num 1),
        (substitute (.sym "n") (.num ((1 : ℕ) : ℚ)) (OnIC.abstractIC icOps 0 2 sol), Expr.num 3)] := hp
    simp only [List.mem_cons, List.not_mem_nil, or_false] at hp'
    rcases hp' with rfl | rfl
    · simp only
      rw [key 0, hX0]; simp [eval]
    · simp only
      rw [key 1, hX1]; simp [eval]

/-- The hypotheses of `C148_answer_is_solution` are met by `x(n) = x(n-1) + 2 x(n-2) + 2`, after a history with other initial conditions: the
answer has, at 2, the value `3 + 2 + 2`. -/
theorem C148_nonvacuous (ρ : String → ℚ) : RecReach engine exRhs history ∧ ∃ v, (query engine .exact history).2 = some v ∧
    ∀ Y, eval (withX ratInterp Y) (update ρ "n" ((2 : ℕ) : ℚ)) v = 7 := by
  have hr : RecReach engine exRhs history := .step _ (.step _ (.step _ (.step _ .new)))
  refine ⟨hr, _, history_answer, fun Y => ?_⟩
  obtain ⟨j, -, hj, ⟨X, hX⟩, hv⟩ := (C148_answer_is_solution ex_isLinear ex_wired (ex_assumed ρ) hr history_answer).2
    (by rw [history_ics]; simp) (by rw [history_ics]; exact ex_goodICs)
  obtain rfl : j = 0 := hj.unique (by simp [exSt]) (by rw [history_ics]; constructor <;> simp [ICMap.keys, exSt]; omega)
  rw [hv X hX 2 (by omega)]
  rw [history_ics] at hX
  have h0 : X ((0 : ℕ) : ℚ) = 1 := by simpa [eval] using hX.2 (0, .num 1) (by simp)
  have h1 : X ((1 : ℕ) : ℚ) = 3 := by simpa [eval] using hX.2 (1, .num 3) (by simp)
  have h2 := hX.1 2 (by simp [exSt])
  rw [h2, (SolveLin.ex_recIs ρ).lin X _ 2 (by omega) (SolveLin.agrees_self "n" _ ρ 2)]
  simp only [Finset.sum_range_succ, Finset.sum_range_zero, exA]
  norm_num at h0 h1 ⊢
  rw [h0, h1]
  norm_num

end Purrs.CapstoneLinear
