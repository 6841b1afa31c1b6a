import Verif.Props.OldOrder1
import Verif.Props.CapstoneVarEx

/-!
# A case meeting the hypotheses of C161 for order 1: `x(n) = 2 x(n-1) + n + n!`
-/

set_option linter.unusedSectionVars false

namespace Purrs.OldMethod

open Function (update update_of_ne update_self)
open OrderRed (withX IsSolution)
open OnIC (Shape)
open SolveLin (solveLinear decomposition ICs)
open Exact (EPTerm)
open CapstoneVar (fac exOps fac_val fac_shape)
open Polynomial

/-- `n + n!`. -/
def exInhom1 : Expr := .add [.sym "n", fac]

/-- `2 x(n-1) + n + n!`. -/
def exRhs1 : Expr := .add [.mul [.num 2, .fn .x [.add [.sym "n", .num (-1)]]], .sym "n", fac]

/-- The symbols. -/
def exNames : Names := ⟨"n", "k", "x", "alpha", "lambda", "h"⟩

/-- The sum of the `j v^j` is left as a sum over `j`; no simplification; Gosper's algorithm does not find anything. -/
def exOps1 : Ops1 where
  polyExp := fun _ v => .binder .sum (.sym "j") (.num ((0 : ℕ) : ℚ)) (.sym "n") (mulE (.sym "j") (powE v (.sym "j")))
  simp := id
  gosper := fun _ _ => none

/-- The summation index. -/
def exB0 (t : String) : Prop := t = "j"
/-- The summation indices of the answer. -/
def exB (t : String) : Prop := t = "j" ∨ t = "h"
/-- The symbols that are not parameters. -/
def exV (t : String) : Prop := t ∈ ["n", "k", "x", "alpha", "lambda", "h", "j"]

/-- The term of the decomposition. -/
noncomputable def exD : EPTerm ℝ := ⟨1, X, fun N => (N.factorial : ℝ)⟩

theorem ex1_decomposition : decomposition exOps "n" exInhom1 = [(.num 1, .sym "n", fac)] := by
  simp [decomposition, exOps, exInhom1, fac, expPolyDecomposition, epSummand, epBase, epFactor, bumpLast, isolatePolynomialPart, isPolynomial, isScalarRep, has,
    addE]

theorem ex1_new : NewSymbols exNames exB0 exV where
  nodup := by decide
  notIdx := by simp [exNames, exB0]
  mem := by simp [exNames, exV]
  idx := by simp [exB0, exV]

theorem ex1_const (ρ : String → ℝ) (q : ℚ) : ConstV (realInterp 0) exV ρ (.num q) (q : ℝ) :=
  ⟨fun X σ τ _ => by simp [eval], fun X => by simp [eval]⟩

theorem ex1_sum (v : Expr) (w : ℝ) (X : ℝ → ℝ) (σ : String → ℝ) (N : ℕ) (hn : σ "n" = N)
    (hv : ∀ j : ℕ, eval (withX (realInterp 0) X) (update σ "j" (j : ℝ)) v = w) :
    eval (withX (realInterp 0) X) σ (exOps1.polyExp (qk exNames (.sym "n")) v)
      = ∑ j ∈ Finset.range (N + 1), (Polynomial.X : ℝ[X]).eval (j : ℝ) * w ^ j := by
  show eval _ _ (Expr.binder .sum (.sym "j") (.num ((0 : ℕ) : ℚ)) (.sym "n") _) = _
  rw [sum_value (EvalRules.stdBind_real 0) 0 _ (fun j => (j : ℝ) * w ^ j) X hn fun j _ _ => ?_]
  · refine Finset.sum_bij' (fun a _ => a.toNat) (fun b _ => (b : ℤ)) ?_ ?_ ?_ ?_ ?_
    · intro a ha; have := Finset.mem_Icc.mp ha; rw [Finset.mem_range]; omega
    · intro a ha; have := Finset.mem_range.mp ha; rw [Finset.mem_Icc]; omega
    · intro a ha; have := Finset.mem_Icc.mp ha; omega
    · intro a _; simp
    · intro a _; simp
  · rw [eval_mulE, eval_powE, hv]
    simp only [eval, update_self]
    rw [pw_nat]

theorem ex1_term (ρ : String → ℝ) : TermOk (realInterp 0) exOps1 exNames exB0 exB exV ρ 0 (.num 2) (.num 1, .sym "n", fac) exD where
  ne := by simp [exD]
  base := by simpa [exD] using ex1_const ρ 1
  poly := fun X σ j _ h => by simpa [eval, exD] using (show σ "n" = j from h)
  rest := fun X σ j _ _ h => fac_val X σ j h
  shapeB := by simp [Shape]
  shapeP := by simp [Shape]
  shapeR := by
    rw [fac, Shape]
    exact ⟨by simp, by simp [Shape]⟩
  sumD := fun X σ N _ hn _ => ex1_sum (.sym "x") (σ "x") X σ N hn fun j => by
    simp only [eval]
    exact update_of_ne (by decide) _ _
  sumN := fun X σ N _ hn => by
    rw [ex1_sum (.num 1) 1 X σ N hn fun j => by simp [eval]]
    simp [exD]
  sumShape := by
    constructor
    · show Shape _ _ (Expr.binder .sum (.sym "j") (.num ((0 : ℕ) : ℚ)) (.sym "n") _)
      rw [Shape]
      exact ⟨⟨"j", rfl, rfl⟩, shape_num _, shape_sym _, OnIC.shape_mulE (shape_sym _) (OnIC.shape_powE (shape_sym _) (shape_sym _))⟩
    · show Shape _ _ (Expr.binder .sum (.sym "j") (.num ((0 : ℕ) : ℚ)) (.sym "n") _)
      rw [Shape]
      exact ⟨⟨"j", rfl, rfl⟩, shape_num _, shape_sym _, OnIC.shape_mulE (shape_sym _) (OnIC.shape_powE (shape_num _) (shape_sym _))⟩
  simp := fun _ _ _ _ _ _ _ _ _ _ => rfl
  simpShape := by
    have hN := ex1_new
    have hs : ∀ v : Expr, Shape exB0 (fun _ => False) v → Shape exB0 (fun _ => False) (exOps1.polyExp (qk exNames (.sym "n")) v) := by
      intro v hv
      show Shape _ _ (Expr.binder .sum (.sym "j") (.num ((0 : ℕ) : ℚ)) (.sym "n") _)
      rw [Shape]
      exact ⟨⟨"j", rfl, rfl⟩, shape_num _, shape_sym _, OnIC.shape_mulE (shape_sym _) (OnIC.shape_powE hv (shape_sym _))⟩
    intro distinct
    show Shape _ _ (rawSum _ _ _ _ _)
    unfold rawSum
    refine OnIC.shape_mulE ?_ (OnIC.shape_powE (shape_sym _) (shape_sym _))
    cases distinct with
    | true =>
      simp only [if_true]
      exact shape_substS hN.all.1.2.2.1 (shape_divE (shape_sym _) (shape_sym _))
        (shape_sub_foldl _ _ _ (hs _ (shape_sym _)) (shape_termJ hN (shape_sym _)))
    | false =>
      simp only [Bool.false_eq_true, if_false]
      exact shape_sub_foldl _ _ _ (hs _ (shape_num _)) (shape_termJ hN (shape_sym _))
  gosper := fun g _ h => by cases h

theorem ex1_lin (ρ : String → ℝ) (X : ℝ → ℝ) (N : ℕ) (hN : 0 + 1 ≤ N) :
    eval (withX (realInterp 0) X) (update ρ "n" (N : ℝ)) exRhs1 = 2 * X ((N - 1 : ℕ) : ℝ) + ((N : ℝ) + (N.factorial : ℝ)) := by
  obtain ⟨M, rfl⟩ : ∃ M, N = M + 1 := ⟨N - 1, by omega⟩
  rw [exRhs1, eval]
  simp only [List.map_cons, List.map_nil, List.sum_cons, List.sum_nil]
  rw [fac_val X _ (M + 1) (update_self _ _ _)]
  simp only [eval, OrderRed.eval_x, List.map_cons, List.map_nil, List.sum_cons, List.sum_nil, List.prod_cons, List.prod_nil, update_self]
  have e1 : ((M + 1 : ℕ) : ℝ) + (((-1 : ℚ) : ℝ) + 0) = ((M : ℕ) : ℝ) := by push_cast; ring
  rw [e1, Nat.add_sub_cancel]
  push_cast
  ring

/-- **C161** (the hypotheses are met, order 1).  For `x(n) = 2 x(n-1) + n + n!` the answer solves the recurrence. -/
theorem C161_order1_nonvacuous (ρ : String → ℝ) :
    ∃ e, solveLinear exOps "n" exRhs1 exInhom1 0 1 true (.num 2) (some [(.num 2, 1)])
        (some (oldOne exOps1 exNames exOps 0 (.num 2) (.num 2) exInhom1)) = some e ∧
      IsSolution (realInterp 0) "n" exRhs1 ρ e 0 1 := by
  classical
  have hm : ∀ t ∈ decomposition exOps "n" exInhom1, t = (.num 1, .sym "n", fac) := by
    rw [ex1_decomposition]
    simp
  have hne : ∃ t ∈ decomposition exOps "n" exInhom1, t.2.2 ≠ .num 0 := by
    rw [ex1_decomposition]
    exact ⟨(.num 1, .sym "n", fac), by simp, by simp [fac]⟩
  have hs : solveLinear exOps "n" exRhs1 exInhom1 0 1 true (.num 2) (some [(.num 2, 1)])
      (some (oldOne exOps1 exNames exOps 0 (.num 2) (.num 2) exInhom1)) = some (oldOne exOps1 exNames exOps 0 (.num 2) (.num 2) exInhom1) := by
    rw [solveLinear, if_neg (by decide), if_pos rfl, Option.bind_some, SolveLin.solveConst]
    exact if_pos (by simpa using hne)
  refine ⟨_, hs, (C161_old_method_order1 (s := exNames) (P := exOps1) (B0 := exB0) (B := exB) (V := exV) (root := .num 2) (r := 2)
    (p := fun N => (N : ℝ) + (N.factorial : ℝ)) (D := fun _ => exD) (EvalRules.stdBind_real 0) ex1_new (fun t h => .inl h) (.inr rfl) ?_ (by norm_num)
    (ex1_lin ρ) ?_ ?_ ?_ (by simp [Shape]) ?_ (by simp [Shape]) ?_ ?_ CapstoneReduce.keeps_id CapstoneReduce.keeps_id CapstoneReduce.keeps_id hne hs).2⟩
  · simp [exB, exNames]
  · intro X N _
    show eval (withX (realInterp 0) X) (update ρ "n" (N : ℝ)) exInhom1 = _
    rw [exInhom1, eval]
    simp only [List.map_cons, List.map_nil, List.sum_cons, List.sum_nil]
    rw [fac_val X _ N (update_self _ _ _)]
    simp [eval, exNames]
  · simp [exInhom1, fac, Shape]
  · simpa using ex1_const ρ 2
  · simpa using ex1_const ρ 2
  · intro t ht
    rw [hm t ht]
    exact ex1_term ρ
  · intro t ht
    rw [hm t ht]
    simp [exD]

end Purrs.OldMethod
