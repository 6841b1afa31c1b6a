import Verif.Props.OldMethod
import Verif.Props.CapstoneVarEx

/-!
# Cases meeting the hypotheses of C161: `x(n) = 5 x(n-1) - 6 x(n-2) + n!` and `x(n) = 4 x(n-1) - 4 x(n-2) + n!`
-/

set_option linter.unusedSectionVars false

namespace Purrs.OldMethod

open Function (update update_of_ne update_self)
open OrderRed (withX IsSolution)
open OnIC (Shape)
open SolveLin (solveLinear decomposition ICs)
open Exact (LinRec AreRoots SysSolved charPoly sysRow sysRhs)
open CapstoneVar (fac exOps fac_val fac_shape)
open Polynomial

/-- `c1 x(n-1) + c2 x(n-2) + n!`. -/
def exRhs (c1 c2 : ℚ) : Expr :=
  .add [.mul [.num c1, .fn .x [.add [.sym "n", .num (-1)]]], .mul [.num c2, .fn .x [.add [.sym "n", .num (-2)]]], fac]

/-- The coefficients. -/
def exCo (c1 c2 : ℚ) (i : ℕ) : ℚ := [0, c1, c2].getD i 0

theorem ex_lin (c1 c2 : ℚ) (ρ : String → ℝ) (X : ℝ → ℝ) (N : ℕ) (hN : 0 + 2 ≤ N) :
    eval (withX (realInterp 0) X) (update ρ "n" (N : ℝ)) (exRhs c1 c2)
      = (∑ i ∈ Finset.range 2, (exCo c1 c2 (i + 1) : ℝ) * X ((N - (i + 1) : ℕ) : ℝ)) + (N.factorial : ℝ) := by
  obtain ⟨M, rfl⟩ : ∃ M, N = M + 2 := ⟨N - 2, by omega⟩
  rw [exRhs, eval]
  simp only [List.map_cons, List.map_nil, List.sum_cons, List.sum_nil]
  rw [fac_val X _ (M + 2) (update_self _ _ _)]
  simp only [eval, OrderRed.eval_x, List.map_cons, List.map_nil, List.sum_cons, List.sum_nil, List.prod_cons, List.prod_nil, update_self]
  have e1 : ((M + 2 : ℕ) : ℝ) + (((-1 : ℚ) : ℝ) + 0) = ((M + 1 : ℕ) : ℝ) := by push_cast; ring
  have e2 : ((M + 2 : ℕ) : ℝ) + (((-2 : ℚ) : ℝ) + 0) = ((M : ℕ) : ℝ) := by push_cast; ring
  rw [e1, e2]
  simp only [Finset.sum_range_succ, Finset.sum_range_zero, exCo]
  rw [show M + 2 - (0 + 1) = M + 1 by omega, show M + 2 - (1 + 1) = M by omega]
  simp
  ring

theorem ex_decomposition : ∃ t ∈ decomposition exOps "n" fac, t.2.2 ≠ .num 0 := by
  simp [decomposition, exOps, fac, expPolyDecomposition, epSummand, epBase, epFactor, bumpLast, isolatePolynomialPart, isPolynomial, isScalarRep, addE]

theorem ex_distinct (ρ : String → ℝ) : Given (realInterp 0) "n" "h" (fun _ => False) ρ 0 2 (exCo 5 (-6)) (exRhs 5 (-6)) fac
    (fun N => (N.factorial : ℝ)) [(.num 2, 1), (.num 3, 1)] (fun e => if e = .num 2 then 2 else 3) true (fun i => .num (if i = 0 then -2 else 3))
    (fun i => if i = 0 then -2 else 3) (.num (-1)) where
  lin := ex_lin 5 (-6) ρ
  last := by norm_num [exCo]
  inhomVal := fun X σ N _ _ h => fac_val X σ N h
  inhomShape := fac_shape
  rootVal := by
    intro r hr X σ _
    simp only [List.mem_cons, List.not_mem_nil, or_false] at hr
    rcases hr with rfl | rfl <;> simp [eval]
  rootShape := by
    intro r hr
    simp only [List.mem_cons, List.not_mem_nil, or_false] at hr
    rcases hr with rfl | rfl <;> simp [Shape]
  are := by
    unfold AreRoots charPoly
    simp [Finset.sum_range_succ, exCo, show (C (5 : ℝ)) = 5 from rfl, show (C (6 : ℝ)) = 6 from rfl, show (C (2 : ℝ)) = 2 from rfl,
      show (C (3 : ℝ)) = 3 from rfl]
    ring
  mult := by simp
  distinct := by simp
  solVal := fun i X σ _ => by by_cases h : i = 0 <;> simp [eval, h]
  solShape := fun i => by simp [Shape]
  system := by
    intro h hh
    replace hh : h < 2 := hh
    interval_cases h
    · simp [sysRow, sysRhs, List.range_succ]; norm_num
    · simp [sysRow, sysRhs, List.range_succ, exCo]; norm_num
  diffVal := fun X σ _ => by simp [eval, root1, root2]; norm_num
  diffShape := by simp [Shape]
  apart := fun _ => by simp [root1, root2]

theorem ex_multiple (ρ : String → ℝ) : Given (realInterp 0) "n" "h" (fun _ => False) ρ 0 2 (exCo 4 (-4)) (exRhs 4 (-4)) fac
    (fun N => (N.factorial : ℝ)) [(.num 2, 2)] (fun e => if e = .num 2 then 2 else 0) false (fun _ => .num 1) (fun _ => 1) (.num 2) where
  lin := ex_lin 4 (-4) ρ
  last := by norm_num [exCo]
  inhomVal := fun X σ N _ _ h => fac_val X σ N h
  inhomShape := fac_shape
  rootVal := by
    intro r hr X σ _
    simp only [List.mem_cons, List.not_mem_nil, or_false] at hr
    subst hr
    simp [eval]
  rootShape := by
    intro r hr
    simp only [List.mem_cons, List.not_mem_nil, or_false] at hr
    subst hr
    simp [Shape]
  are := by
    unfold AreRoots charPoly
    simp [Finset.sum_range_succ, exCo, show (C (4 : ℝ)) = 4 from rfl, show (C (2 : ℝ)) = 2 from rfl]
    ring
  mult := by simp
  distinct := by simp
  solVal := fun i X σ _ => by simp [eval]
  solShape := fun i => by simp [Shape]
  system := by
    intro h hh
    replace hh : h < 2 := hh
    interval_cases h
    · simp [sysRow, sysRhs, List.range_succ]
    · simp [sysRow, sysRhs, List.range_succ, exCo]; norm_num
  diffVal := fun X σ _ => by simp [eval, root1, root2]
  diffShape := by simp [Shape]
  apart := by simp

/-- **C161** (the hypotheses are met).  For `x(n) = 5 x(n-1) - 6 x(n-2) + n!` and, with a double root, for `x(n) = 4 x(n-1) - 4 x(n-2) + n!`, the answer
solves the recurrence. -/
theorem C161_nonvacuous (ρ : String → ℝ) :
    (∃ e, solveLinear exOps "n" (exRhs 5 (-6)) fac 0 2 true (.num 5) (some [(.num 2, 1), (.num 3, 1)])
        (some (oldHigh exOps "n" "h" 0 (exCo 5 (-6)) 2 true (fun i => .num (if i = 0 then -2 else 3)) (.num (-1)) fac [(.num 2, 1), (.num 3, 1)])) = some e ∧
      IsSolution (realInterp 0) "n" (exRhs 5 (-6)) ρ e 0 2) ∧
    ∃ e, solveLinear exOps "n" (exRhs 4 (-4)) fac 0 2 true (.num 4) (some [(.num 2, 2)])
        (some (oldHigh exOps "n" "h" 0 (exCo 4 (-4)) 2 false (fun _ => .num 1) (.num 2) fac [(.num 2, 2)])) = some e ∧
      IsSolution (realInterp 0) "n" (exRhs 4 (-4)) ρ e 0 2 := by
  have hd : ((decomposition exOps "n" fac).any fun t => decide (t.2.2 ≠ .num 0)) = true := by
    obtain ⟨t, h1, h2⟩ := ex_decomposition
    rw [List.any_eq_true]
    exact ⟨t, h1, by simpa using h2⟩
  have hs : ∀ (rhs a1 : Expr) (roots : List (Expr × ℕ)) (old : Expr),
      solveLinear exOps "n" rhs fac 0 2 true a1 (some roots) (some old) = some old := by
    intro rhs a1 roots old
    rw [solveLinear, if_neg (by decide), if_pos rfl, Option.bind_some, SolveLin.solveConst]
    exact if_pos hd
  constructor
  · exact ⟨_, hs _ _ _ _, (C161_old_method (B := fun t => t = "h") (EvalRules.stdBind_real 0) le_rfl (ex_distinct ρ) (by simp) rfl (by decide) (by simp)
      (by decide) CapstoneReduce.keeps_id CapstoneReduce.keepsX_id CapstoneReduce.keepsX_id ex_decomposition (hs _ (.num 5) _ _)).2⟩
  · exact ⟨_, hs _ _ _ _, (C161_old_method (B := fun t => t = "h") (EvalRules.stdBind_real 0) le_rfl (ex_multiple ρ) (by simp) rfl (by decide) (by simp)
      (by decide) CapstoneReduce.keeps_id CapstoneReduce.keepsX_id CapstoneReduce.keepsX_id ex_decomposition (hs _ (.num 4) _ _)).2⟩

end Purrs.OldMethod
