import Verif.Model.SimplifyAll
import Verif.Props.SimplifyFact
import Verif.Props.SimplifySum
import Verif.Props.SimplifyOut
import Verif.Props.SimplifyLog

/-!
# All simplifications keep the value (C97)
-/

namespace Purrs.SimplifyAll

open SimplifyPow (IsInt IntBind)
open EvalRules (sumEval)
open SimplifyRoot (RealPow)
open SimplifyFact (FactOk BinomOk BinGood FEGood ExpandPowOk binInterp simplifyBFE rewriteBinomials C85_simplify)
open SimplifySum (BindOk collectSums collectSumsTop collectLoop C89_collect_sums)
open SimplifyOut (ExpOk simplifyForOutput simplifyOut)
open SimplifyLog (LogSem NumDenOk simplifyLogarithm C94_simplify_logarithm_partial)

/-! ## Specification -/

/-- The usual meaning of powers, factorials, binomial coefficients, exponentials, logarithms, and symbolic sums and products. -/
structure Meaning (I : Interp ℝ) : Prop where
  pow : RealPow I
  fact : FactOk I
  binom : BinomOk I
  log : LogSem I
  bind : BindOk I

/-- The operations of GiNaC keep the values. -/
structure OpsFine (I : Interp ℝ) (O : Ops) : Prop where
  expand : ∀ (ρ : String → ℝ) e, eval I ρ (O.expand e) = eval I ρ e
  sym : ∀ s, O.expand (.sym s) = .sym s
  expPow : ExpandPowOk I O.expand
  numDen : NumDenOk I O.log
  powOps : ∀ ρ : String → ℝ, SimplifyPow.OpsOk I ρ O.pow

/-- The domains of the stages: factorials and binomial coefficients (C85), merged sums (C89), the output form (C96), logarithms
(C94), each for the expression it is applied to. -/
structure Stages (I : Interp ℝ) (O : Ops) (n : String) (k : ℕ) (ρ : String → ℝ) (e : Expr) : Prop where
  numDen : eval I ρ e = eval I ρ (O.numer e) / eval I ρ (O.denom e)
  binom : BinGood I ρ (O.nd e)
  fact : FEGood I ρ (rewriteBinomials (O.nd e))
  fresh : ∀ e1 l, simplifyBFE O.expand k (O.nd e) = some e1 → O.expand e1 = .add l → SimplifySum.Fresh O.v n l
  merged : ∀ e1 l s, simplifyBFE O.expand k (O.nd e) = some e1 → O.expand e1 = .add l →
    sumEval O.v (.num 1) (.sym n) (O.expand (collectLoop O.sum n l).2.1) = some s → SimplifySum.Good I O.sum .compute k ρ s
  out : ∀ e1 e2, simplifyBFE O.expand k (O.nd e) = some e1 → collectSumsTop O.sum n k e1 = some e2 →
    SimplifyOut.Ok I O.pow n false k ρ (O.expand e2)
  log : ∀ e1 e2 e3, simplifyBFE O.expand k (O.nd e) = some e1 → collectSumsTop O.sum n k e1 = some e2 →
    simplifyForOutput O.pow n false k e2 = some e3 → SimplifyLog.Good I (O.expand e3) ρ

theorem meaning_real (ξ : ℝ → ℝ) : Meaning (binInterp ξ) where
  pow := SimplifyFact.realPow_bin ξ
  fact := SimplifyFact.factOk_bin ξ
  binom := SimplifyFact.binomOk_real ξ
  log := ⟨fun _ _ _ => rfl, fun a _ => by simp [binInterp, realFn], fun a => by simp [binInterp, realFn], SimplifyFact.intBind_bin ξ⟩
  bind := ⟨⟨(EvalRules.stdBind_real ξ).sum, (EvalRules.stdBind_real ξ).prod⟩, SimplifyFact.intBind_bin ξ⟩

theorem expOk_of_log {I : Interp ℝ} (h : LogSem I) : ExpOk I :=
  ⟨fun a b => by rw [h.exp, h.exp, h.exp, Real.exp_add], by rw [h.exp, Real.exp_zero]⟩

section
variable {I : Interp ℝ} (hI : Meaning I) {O : Ops} (hO : OpsFine I O)

include hI hO in
/-- `simplify_numer_denom` keeps the value. -/
theorem nd_val {ρ : String → ℝ} {e : Expr} (h : eval I ρ e = eval I ρ (O.numer e) / eval I ρ (O.denom e)) :
    eval I ρ (O.nd e) = eval I ρ e := by
  rw [Ops.nd, eval_mulE, eval_powE, hI.pow, hO.expand, hO.expand, h, div_eq_mul_inv]
  simp [eval, Real.rpow_neg_one]

include hI hO in
/-- **C97**: all simplifications together keep the value of an expression at every natural `n`, if every rule that is applied is in
its domain. -/
theorem C97_simplify_all_partial {n : String} {k : ℕ} {e r : Expr} (h : simplifyAll O n k e = some r) {ρ : String → ℝ} {N : ℕ}
    (hN : ρ n = N) (hg : Stages I O n k ρ e) : eval I ρ r = eval I ρ e := by
  obtain ⟨e1, h1, h⟩ := Option.bind_eq_some_iff.mp h
  obtain ⟨e2, h2, h⟩ := Option.bind_eq_some_iff.mp h
  obtain ⟨e3, h3, rfl⟩ := Option.map_eq_some_iff.mp h
  have hB : IntBind I := hI.bind.int
  have v1 := C85_simplify hI.fact hI.binom hI.pow hB hO.expPow h1 hg.binom hg.fact
  have v2 : eval I ρ e2 = eval I ρ e1 := by
    obtain ⟨r, hr, rfl⟩ := Option.map_eq_some_iff.mp h2
    have hE : ∀ (ρ : String → ℝ) e, eval I ρ (O.sum.expand e) = eval I ρ e := hO.expand
    rw [hE, ← hO.expand ρ e1]
    by_cases ha : ∃ l, O.expand e1 = .add l
    · obtain ⟨l, hl⟩ := ha
      rw [show O.sum.expand e1 = .add l from hl] at hr
      rw [hl]
      exact C89_collect_sums hI.bind hr hE (hg.fresh e1 l h1 hl) hN fun s hs => hg.merged e1 l s h1 hl hs
    · have : r = O.expand e1 := by
        have hr : collectSums O.sum n k (O.expand e1) = some r := hr
        unfold collectSums at hr
        split at hr
        · rename_i l hl
          exact (ha ⟨l, hl⟩).elim
        · exact (Option.some.inj hr).symm
      rw [this]
  have v3 := SimplifyOut.C96_simplify_output_partial hI.pow (expOk_of_log hI.log) hB hO.powOps hO.sym h3 ⟨N, by simpa using hN⟩
    (hg.out e1 e2 h1 h2)
  have v4 := C94_simplify_logarithm_partial hI.log hO.numDen hO.expand n k k (hg.log e1 e2 e3 h1 h2 h3)
  rw [v4, v3, show O.pow.expand e2 = O.expand e2 from rfl, hO.expand, v2, v1, nd_val hI hO hg.numDen]

end

/-! ## The hypotheses are met -/

open SimplifyOut (exMixed exExp idOps)

/-- Operations that change nothing. -/
def idAll : Ops := ⟨id, id, fun _ => .num 1, fun _ _ => false, fun _ _ => false, fun _ _ => [], fun _ _ _ _ => none, "k", "v"⟩

theorem idAll_nd (e : Expr) : idAll.nd e = mulE e (.num 1) := by
  simp [Ops.nd, idAll, powE]

theorem idAll_fine (ξ : ℝ → ℝ) : OpsFine (binInterp ξ) idAll where
  expand := fun _ _ => rfl
  sym := fun _ => rfl
  expPow := SimplifyFact.expandPowOk_id _
  numDen := fun ρ e _ => by simp [Ops.log, idAll, eval]
  powOps := fun ρ => ⟨fun b => by
    have : idAll.pow.nd b = mulE b (.num 1) := idAll_nd b
    rw [this]
    exact ⟨by rw [eval_mulE]; simp [eval], fun h => SimplifyPow.lw_mulE h (by simp [SimplifyPow.Lw])⟩, by simp [Ops.pow, idAll]⟩

theorem mixed_bfe (k : ℕ) : simplifyBFE id (k + 3) (.mul exMixed) = some (.mul exMixed) := by
  simp [simplifyBFE, rewriteBinomials, exMixed, SimplifyFact.rewriteFE, SimplifyFact.feStep, mulE, powE, SimplifyFact.powCase,
    SimplifyFact.swapArgs, SimplifyFact.powRest, SimplifyFact.expandPow]

theorem mixed_sums (n : String) (k : ℕ) : collectSumsTop idAll.sum n k (.mul exMixed) = some (.mul exMixed) := by
  simp [collectSumsTop, collectSums, Ops.sum, idAll]

/-- The hypotheses of **C97** hold for `x · x^y · exp(a) · exp(b)` with positive `x`, which becomes `x^{1+y} exp(a + b)`. -/
theorem C97_nonvacuous (n : String) (k : ℕ) (ξ : ℝ → ℝ) (ρ : String → ℝ) (hx : 0 < ρ "x") :
    Stages (binInterp ξ) idAll n (k + 3) ρ (.mul exMixed) ∧ ∃ r, simplifyAll idAll n (k + 3) (.mul exMixed) = some r := by
  have hnd : idAll.nd (.mul exMixed) = .mul exMixed := by
    rw [idAll_nd]
    simp [mulE, exMixed]
  obtain ⟨o1, o2⟩ := SimplifyOut.mixed_ok (O := idAll.pow) rfl (by simp [Ops.pow, idAll_nd, mulE]) n (k + 1) (binInterp ξ) ρ hx
  have hb : simplifyBFE idAll.expand (k + 3) (.mul exMixed) = some (.mul exMixed) := mixed_bfe k
  refine ⟨⟨?_, ?_, ?_, ?_, ?_, ?_, ?_⟩, ?_⟩
  · simp [idAll, eval]
  · rw [hnd]
    simp [exMixed, BinGood]
  · rw [hnd]
    simp [exMixed, rewriteBinomials, mulE, powE, FEGood, eval, hx]
  · intro e1 l h1 h2
    rw [hnd, hb] at h1
    cases h1
    cases h2
  · intro e1 l s h1 h2
    rw [hnd, hb] at h1
    cases h1
    cases h2
  · intro e1 e2 h1 h2
    rw [hnd, hb] at h1
    cases h1
    rw [mixed_sums] at h2
    cases h2
    exact o1
  · intro e1 e2 e3 h1 h2 h3
    rw [hnd, hb] at h1
    cases h1
    rw [mixed_sums] at h2
    cases h2
    rw [o2] at h3
    cases h3
    have hx' : 0 < eval (binInterp ξ) ρ (.sym "x") := by simpa [eval] using hx
    show SimplifyLog.Good _ (.mul _) ρ
    simp [SimplifyLog.Good, exExp, SimplifyLog.invs, SimplifyLog.Pos, SimplifyLog.NoLog, SimplifyLog.topLogs, SimplifyLog.logArg,
      SimplifyLog.invLogArg, hx']
  · refine ⟨simplifyLogarithm idAll.log n (k + 3) (k + 3) (.mul [.pow (.sym "x") (.add [.sym "y", .num 1]), exExp]), ?_⟩
    rw [simplifyAll, hnd, hb, Option.bind_some, mixed_sums, Option.bind_some, o2]
    rfl

/-! ## Negative numbers -/

open SimplifyOut (simplifyOut red1 red2 red3 red4 powers powStep powOut functions fnStep part isFn mergeExp expArg expE reduceAll
  reduceTerm manipFactor step)
open SimplifyRoot (redProd reduceProduct prodLoop prodStep absorb signedDen reduceToStd signE topOf botOf)

/-- `1/2 · 2^{1/3} · 4^{1/3}`. -/
def exOne : List Expr := [.num (1 / 2), .pow (.num 2) (.num (1 / 3)), .pow (.num 4) (.num (1 / 3))]

/-- `(-3)^{1/2 · 2^{1/3} · 4^{1/3}}`. -/
def exPow : Expr := .pow (.num (-3)) (.mul exOne)

theorem exOne_value {O : SimplifyPow.Ops} (hE : O.expand = id) (n : String) (k : ℕ) :
    simplifyOut O n false (k + 2) (.mul exOne) = some (.num 1) := by
  have hnum : ∀ q, simplifyOut O n false (k + 1) (O.expand (.num q)) = some (.num q) := fun q => by rw [hE]; rfl
  have e1 : powers O n false (simplifyOut O n false (k + 1)) exOne =
      some (.mul [.pow (.num 4) (.num (1 / 3)), .pow (.num 2) (.num (1 / 3)), .num (1 / 2)]) := by
    have a1 : powStep O n false (simplifyOut O n false (k + 1)) (.num (1 / 2)) = some (.num (1 / 2)) := rfl
    have a2 : powStep O n false (simplifyOut O n false (k + 1)) (.pow (.num 2) (.num (1 / 3))) =
        some (.pow (.num 2) (.num (1 / 3))) := by
      simp only [powStep, hnum, Option.bind_some, Option.map_some, powOut, red1]
    have a3 : powStep O n false (simplifyOut O n false (k + 1)) (.pow (.num 4) (.num (1 / 3))) =
        some (.pow (.num 4) (.num (1 / 3))) := by
      simp only [powStep, hnum, Option.bind_some, Option.map_some, powOut, red2]
    simp only [powers, exOne, List.mapM_cons, List.mapM_nil, a1, a2, a3, Option.pure_def, Option.bind_eq_bind, Option.bind_some,
      Option.map_some, List.foldr_cons, List.foldr_nil]
    norm_num [mulE]
  have e2 : functions O (simplifyOut O n false (k + 1))
      (.mul [.pow (.num 4) (.num (1 / 3)), .pow (.num 2) (.num (1 / 3)), .num (1 / 2)]) =
      some (.mul [.num (1 / 2), .pow (.num 2) (.num (1 / 3)), .pow (.num 4) (.num (1 / 3))]) := by
    simp only [functions, List.mapM_cons, List.mapM_nil, fnStep, Option.pure_def, Option.bind_eq_bind, Option.bind_some,
      Option.map_some, part, isFn, List.foldr_cons, List.foldr_nil]
    norm_num [mulE]
  have e3 : mergeExp (.mul [.num (1 / 2), .pow (.num 2) (.num (1 / 3)), .pow (.num 4) (.num (1 / 3))]) =
      .mul [.pow (.num 4) (.num (1 / 3)), .pow (.num 2) (.num (1 / 3)), .num (1 / 2)] := by
    simp only [mergeExp, expArg, part, List.foldr_cons, List.foldr_nil, expE]
    norm_num [mulE]
  have e4 : reduceAll (.mul [.pow (.num 4) (.num (1 / 3)), .pow (.num 2) (.num (1 / 3)), .num (1 / 2)]) = some (.num 1) := by
    simp only [reduceAll, reduceTerm, reduceProduct, prodLoop, prodStep, Option.bind_some, red3, absorb, red4, Option.map_some]
    norm_num [mulE]
  show manipFactor O n false (simplifyOut O n false (k + 1)) exOne = _
  simp only [manipFactor, e1, Option.bind_some, e2, e3, e4, Option.map_some]
  rfl

theorem exPow_output {O : SimplifyPow.Ops} (hE : O.expand = id) (n : String) (k : ℕ) :
    simplifyForOutput O n false (k + 3) exPow = some (.num 3) := by
  have h2 : redProd (-3) 1 1 1 = .num 3 := by
    norm_num [redProd, signedDen, reduceToStd, signE, topOf, botOf, mulE]
  have h3 : simplifyOut O n false (k + 2) (.num (-3)) = some (.num (-3)) := rfl
  rw [simplifyForOutput, hE, id, simplifyOut, exPow, step, powStep, hE, id, id, h3, Option.bind_some, exOne_value hE]
  simp only [Option.map_some, powOut, h2, SimplifyOut.collectTerm]

theorem exPow_bfe (k : ℕ) : simplifyBFE id (k + 4) exPow = some exPow := by
  have m3 : ¬ (-3 : ℚ) = 1 := by norm_num
  have h2 : ¬ (2 : ℚ)⁻¹ = 1 := by norm_num
  simp [simplifyBFE, rewriteBinomials, exPow, exOne, SimplifyFact.rewriteFE, SimplifyFact.feStep, mulE, powE, SimplifyFact.powCase,
    SimplifyFact.swapArgs, SimplifyFact.powRest, SimplifyFact.expandPow, m3]

/-- **C97** is false for negative numbers: `(-3)^{1/2 · 2^{1/3} · 4^{1/3}}`, which is `-3`, is simplified to `3`. -/
theorem C97_negative_number_refuted (ξ : ℝ → ℝ) (n : String) (k : ℕ) (ρ : String → ℝ) :
    simplifyAll idAll n (k + 4) exPow = some (.num 3) ∧ eval (binInterp ξ) ρ exPow = -3 := by
  constructor
  · have hnd : idAll.nd exPow = exPow := by
      rw [idAll_nd]
      simp [mulE, exPow]
    have hb : simplifyBFE idAll.expand (k + 4) exPow = some exPow := exPow_bfe k
    have hs : collectSumsTop idAll.sum n (k + 4) exPow = some exPow := by
      simp [collectSumsTop, collectSums, Ops.sum, idAll, exPow]
    rw [simplifyAll, hnd, hb, Option.bind_some, hs, Option.bind_some, exPow_output rfl]
    rfl
  · have h : (2 : ℝ) ^ ((1 : ℝ) / 3) * (4 : ℝ) ^ ((1 : ℝ) / 3) = 2 := by
      rw [← Real.mul_rpow (by norm_num) (by norm_num), show (2 : ℝ) * 4 = 2 ^ (3 : ℝ) by norm_num, ← Real.rpow_mul (by norm_num)]
      norm_num
    have hv : eval (binInterp ξ) ρ (.mul exOne) = 1 := by
      simp only [exOne, eval, List.map_cons, List.map_nil, List.prod_cons, List.prod_nil, binInterp, realInterp]
      push_cast
      linear_combination h / 2
    rw [exPow, eval, hv]
    simp [eval, binInterp, realInterp]

end Purrs.SimplifyAll
