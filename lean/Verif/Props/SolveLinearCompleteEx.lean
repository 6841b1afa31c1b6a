import Verif.Props.SolveLinearEx
import Verif.Props.SolveLinearComplete

/-!
# Cases meeting the hypotheses of C147
-/

set_option linter.unusedSectionVars false

namespace Purrs.SolveLin

open Function (update update_of_ne update_self)
open OrderRed (withX eval_x eval_noX SolvesAt IsSolution idxNe)
open OnIC (Shape shape_hasX)
open WeightedAvg (shiftN)
open Verify (xAt xDec subX xOut)
open Polynomial Purrs.Exact

/-! ### A case meeting the hypotheses -/

theorem ex_complete_first (ρ : String → ℚ) (j : ℕ) : CompleteFor ratInterp exOps "n" ρ [(exEq, .num 0)] 1 j := by
  intro _
  refine ⟨[.num (-1)], ?_, fun X σ _ h i hi => ?_⟩
  · have h1 : exOps.lsolve [(exEq, .num 0)] [exU 0] = some [.num (-1)] := by simp [exOps]
    exact h1
  have : i = 0 := by omega
  subst this
  have h0 := h (exEq, .num 0) (by simp)
  simp only at h0
  rw [ex_eq] at h0
  show σ (exU 0) = eval _ _ (.num (-1))
  simp only [eval] at h0 ⊢
  push_cast at h0 ⊢
  linarith

theorem ex_special_sum : specialSum exOps "n" exHomo 2 exRoots 0 [(.num 1, .num 2, .num 0)] (.num 0) = some (addE (.num 0) exSpecial) := by
  rw [specialSum, ex_multOf]
  have : special exOps "n" (exOps.unknown (0 + 1)) exHomo 2 (.num 2) (.num 1) 0 = some exSpecial := by
    rw [special, if_neg ex_not_fast]
    rfl
  rw [this]
  rfl

theorem ex_special_denotes (ρ : String → ℚ) : Denotes ratInterp "n" (Unknown exOps) ρ 0 (addE (.num 0) exSpecial) fun _ => (-1 : ℚ) := by
  intro X σ N _ hσ
  rw [eval_addE, ex_special_val X σ N hσ.1]
  simp [eval]

theorem ex_complete_second (ρ : String → ℚ) : CompleteFor ratInterp exOps "n" ρ exSys 2 0 := by
  intro _
  refine ⟨exVals, ?_, fun X σ hσ h i hi => ?_⟩
  · show (if _ then _ else _) = _
    rw [if_neg (by rintro ⟨h, -⟩; exact absurd (congrArg List.length h) (by simp [exSys, constantsSystem]))]
    exact if_pos ⟨rfl, rfl⟩
  have hsh : Shape (fun _ => False) (fun _ => False) (addE (.num 0) exSpecial) := OnIC.shape_addE (by simp [Shape]) ex_special_shape
  have hiff := fun {τ : String → ℚ} (hτ : Same "n" (Unknown exOps) ρ τ) =>
    constants_iff (ex_opsOk ρ) (ex_roots ρ) hsh (ex_special_denotes ρ) X hτ
  set τ := update (update σ (exU 0) ((X 0 + X 1 + 2) / 3)) (exU 1) ((2 * X 0 - X 1 + 1) / 3) with hτ
  have h01 : exU 0 ≠ exU 1 := fun h => absurd (exU_inj _ _ h) (by omega)
  have h1 : Same "n" (Unknown exOps) ρ τ := (hσ.update (O := exOps) 0 0 _).update (O := exOps) 0 1 _
  have h2 : Sat ratInterp X τ exSys := ex_system X τ (by rw [hτ, update_of_ne h01, update_self]) (by rw [hτ, update_self])
  have := C147_constants_determined (⟨2, exA, fun _ => 0, 0⟩ : LinRec ℚ) _ (by norm_num) (by simp [exA]) (ex_roots ρ).are (fun r hr => by
    obtain ⟨r', h', rfl⟩ := List.mem_map.mp hr
    exact (ex_roots ρ).pos r' h') (ex_roots ρ).nodup ((hiff hσ).mp h) ((hiff h1).mp h2) i hi
  have e : σ (exU i) = τ (exU i) := this
  show σ (exU i) = _
  rw [e]
  interval_cases i
  · rw [hτ, update_of_ne h01, update_self]
    exact (ex_vals0 X σ).symm
  · rw [hτ, update_self]
    exact (ex_vals1 X σ).symm

/-- `x(n) = 4 x(n-1) - 4 x(n-2) + 2^n`: the hypotheses of `C147_undetermined_coefficients` are met with a base that is a double root; the first two of the
three coefficients are undetermined and the third is `1/2`. -/
example (c : ℕ → ℚ) : SpecialSolved (⟨2, fun j => [0, 4, -4].getD j 0, fun n => 2 ^ n, 0⟩ : LinRec ℚ) 1 2 2 c ↔ c 2 = 1 / 2 := by
  have h1 : AreRoots (⟨2, fun j => [0, 4, -4].getD j 0, fun n => 2 ^ n, 0⟩ : LinRec ℚ) [(2, 2)] := by
    unfold AreRoots charPoly
    simp [Finset.sum_range_succ, constC2, constC4]
    ring
  have hb : baseMult [((2 : ℚ), 2)] 2 = 2 := by simp [baseMult]
  have h2 : SpecialSolved (⟨2, fun j => [0, 4, -4].getD j 0, fun n => 2 ^ n, 0⟩ : LinRec ℚ) 1 2 (baseMult [((2 : ℚ), 2)] 2)
      (fun i => if i = 2 then 1 / 2 else 0) := by
    rw [hb, specialSolved_iff]
    unfold specialDiff specialPoly
    rw [natDegree_one]
    simp only [Finset.sum_range_succ, Finset.range_zero, Finset.sum_empty]
    norm_num
    have h : (C (2⁻¹ : ℚ)) * 2 = 1 := by rw [← constC2, ← C_mul]; norm_num
    simp [constC2]
    linear_combination h
  have h3 := C147_undetermined_coefficients _ [((2 : ℚ), 2)] h1 (by simp) 1 2 (by norm_num) h2 c
  rw [hb] at h3
  rw [h3]
  constructor
  · intro h
    simpa using h 2 le_rfl (by simp)
  · intro h i h4 h5
    have : i = 2 := by simp at h5; omega
    subst this
    simpa using h

/-- The hypotheses of `C147_complete` are met by `x(n) = x(n-1) + 2 x(n-2) + 2`. -/
example (ρ : String → ℚ) : ∃ e, solveLinear exOps "n" exRhs (.num 2) 0 2 true (.num 1) (some exRoots) none = some e ∧
    Shape (fun _ => False) (ICs 0 2) e ∧ IsSolution ratInterp "n" exRhs ρ e 0 2 := by
  refine C147_complete (ex_opsOk ρ) (by norm_num) (a := exA) (by simp [exA]) (ex_recIs ρ) (by norm_num) (by simp [Shape])
    (ex_roots ρ) (b := fun _ => 1) (P := fun _ => C 2) ?_ ex_match ?_ ?_ ?_ none
  · intro t ht
    rw [ex_decomposition, List.mem_singleton] at ht
    subst ht
    exact ex_termIs ρ
  · intro t ht
    rw [ex_decomposition, List.mem_singleton] at ht
    subst ht
    show TermKnown _ _ _ _ _ _ _ exHomo (multOf exOps exRoots (.num 1)) _ _
    rw [ex_multOf]
    exact ⟨(ex_termSolved ρ).sum, (ex_termSolved ρ).recognised, fun _ j => ex_complete_first ρ j⟩
  · intro _ s hs
    rw [ex_decomposition] at hs
    have hs' : specialSum exOps "n" exHomo 2 exRoots 0 [(.num 1, .num 2, .num 0)] (.num 0) = some s := hs
    rw [ex_special_sum, Option.some.injEq] at hs'
    subst hs'
    exact ex_complete_second ρ
  · intro t ht
    rw [ex_decomposition, List.mem_singleton] at ht
    subst ht
    rfl

end Purrs.SolveLin
