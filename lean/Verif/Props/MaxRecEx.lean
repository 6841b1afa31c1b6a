import Verif.Props.MaxRec
import Verif.Props.CapstoneVarEx
import Verif.Props.OrderZeroEx

/-!
# C156: cases

`x(n) = max(n x(n-1) + n!, 1)` meets the hypotheses; for `x(n) = max(n x(n-1) + n!, -5)` the answer is wrong; for a maximum with a recurrence of order 2 an
exception is thrown.
-/

set_option linter.unusedSectionVars false

namespace Purrs.MaxRec

open Function (update update_of_ne update_self)
open OrderRed (withX eval_noX SolvesAt IsSolution)
open OnIC (Shape)
open Capstone (GoodICs)
open RecState

/-- `max(n x(n-1) + n!, q)`. -/
def exMax (q : ℚ) : Expr := .fn .max [CapstoneVar.exRhs, .num q]

/-- The engine for the recurrence with a maximum. -/
noncomputable def maxEngine : Engine where
  classify := fun e => (.success, ⟨.maxFn, 0, 0, 0⟩, e)
  solve := fun e _ _ =>
    match solve CapstoneVar.engine e with
    | .solution v => .ok v
    | .status s => .error s
    | .throws => .error .tooComplex
  bound := fun _ _ _ => .error .tooComplex
  onIC := fun _ _ _ x => x
  rename := id

theorem ex_args (q : ℚ) : maxArgs (exMax q) = some (.num q, CapstoneVar.exRhs) := by
  simp [maxArgs, exMax, isLeaf, CapstoneVar.exRhs]

theorem ex_solve (q : ℚ) : solve CapstoneVar.engine (exMax q) =
    .solution (CapstoneVar.engine.onIC CapstoneVar.exRhs ⟨.linVar, 1, 0, 0⟩ [(0, .num q)] CapstoneVar.sol) := by rfl

theorem ex_wired (ρ : String → ℝ) (q : ℚ) : Wired maxEngine CapstoneVar.engine "n" ρ (exMax q) := ⟨rfl, fun _ => rfl, fun _ _ _ _ => rfl⟩

theorem ex_goodICs (q : ℚ) : GoodICs (realInterp 0) CapstoneVar.engine CapstoneVar.icOps "n" (fun _ => False) CapstoneVar.exRhs
    (CapstoneVar.Returned CapstoneVar.engine CapstoneVar.exOps "n" CapstoneVar.exRhs CapstoneVar.exSt 0) [(0, .num q)] where
  sorted := by simp [ICMap.Sorted]
  small := by simp [ICMap.keys]
  large := ⟨0, by simp [ICMap.keys], by simp [CapstoneVar.engine]⟩
  value := by
    intro r hr
    simp only [List.mem_singleton] at hr
    subst hr
    exact ⟨by simp [Shape], by intro Y ρ t v _; simp [eval]⟩
  answered := by
    intro x hx
    rw [CapstoneVar.ex_returned hx]
    refine OnIC.ideal_answers (vals := [.num q]) ⟨rfl, by simp [Shape], by simp [OnIC.Indep, eval], ?_⟩
    intro Y τ σ _ hσ p hp
    have hs := (CapstoneVar.returned (CapstoneVar.ex_isVariable σ) (CapstoneVar.ex_assumed σ) (.solve CapstoneVar.sol_spec)).1
    have h0 : σ (OnIC.exFresh 0) = q := by
      simpa [eval] using hσ (OnIC.exFresh 0, .num q) (by simp [CapstoneVar.engine, CapstoneVar.icOps, OnIC.idealOps])
    have hlin := (CapstoneVar.sound (CapstoneVar.ex_isVariable σ) CapstoneVar.ex_wired (CapstoneVar.ex_assumed σ)).linear
    obtain ⟨X, hX, hXv⟩ := OnIC.forward_exists hlin.order fun _ => (q : ℝ)
    have hX0 : X ((0 : ℕ) : ℝ) = q := hXv 0 (by simp [CapstoneVar.engine])
    obtain ⟨s1, s2⟩ := OnIC.abstract_val (I := realInterp 0) (O := CapstoneVar.icOps) (B := fun _ => False) (by simp) X 0 1 hs
    have s3 : Shape (fun _ => False) (fun _ => False) (OnIC.abstractIC CapstoneVar.icOps 0 1 CapstoneVar.sol) := by
      refine OnIC.shape_mono ?_ s1
      rintro r ⟨⟨i, hi, rfl⟩, h⟩
      exact h i hi rfl
    have hp' : p ∈ [(substitute (.sym "n") (.num ((0 : ℕ) : ℚ)) (OnIC.abstractIC CapstoneVar.icOps 0 1 CapstoneVar.sol), Expr.num q)] := hp
    rw [List.mem_singleton] at hp'
    subst hp'
    have e1 := EvalRules.eval_substNum (I := withX (realInterp 0) Y) "n" (SolveLin.shape_idx (n := "n") (by simp) s3) ((0 : ℕ) : ℚ) σ
    simp only
    rw [e1, eval_noX (realInterp 0) Y X _ (OnIC.shape_hasX s3), s2 _ ?_]
    · have := CapstoneVar.ex_solution σ X hX 0 (by omega)
      rw [hX0] at this
      simpa [eval] using this
    · intro i hi
      have : i = 0 := by omega
      subst this
      exact (update_of_ne (CapstoneLinear.fresh_n 0) _ _).trans (h0.trans (by simpa using hX0.symm))

/-- The history: a bound is asked for in vain, the solution is computed, asked for twice. -/
noncomputable def history (q : ℚ) : RecState :=
  (((RecState.new (exMax q)).step maxEngine .computeLower).step maxEngine .computeExact).step maxEngine .getExact

theorem history_reach (q : ℚ) : RecReach maxEngine (exMax q) (history q) := .step _ (.step _ (.step _ .new))

theorem history_answer (q : ℚ) : (query maxEngine .exact (history q)).2 =
    some (CapstoneVar.engine.onIC CapstoneVar.exRhs ⟨.linVar, 1, 0, 0⟩ [(0, .num q)] CapstoneVar.sol) := by rfl

theorem ex_sound (ρ : String → ℝ) : Capstone.SoundLinear (realInterp 0) CapstoneVar.engine CapstoneVar.icOps "n" (fun _ => False) ρ CapstoneVar.exRhs
    (fun _ N => Bounds.val 0 ρ "n" (CapstoneVar.coeff CapstoneVar.exSt) N) (fun N => (N.factorial : ℝ))
    (CapstoneVar.Returned CapstoneVar.engine CapstoneVar.exOps "n" CapstoneVar.exRhs CapstoneVar.exSt 0) :=
  CapstoneVar.sound (CapstoneVar.ex_isVariable ρ) CapstoneVar.ex_wired (CapstoneVar.ex_assumed ρ)

/-- A sequence that satisfies the recurrence with the maximum. -/
noncomputable def seq (q : ℚ) : ℕ → ℝ
  | 0 => q
  | N + 1 => max ((N + 1) * seq q N + (N + 1).factorial) q

theorem seq_solves (ρ : String → ℝ) (q : ℚ) : SolvesAt (realInterp 0) "n" (exMax q) ρ (Function.extend Nat.cast (seq q) 0) 1 := by
  intro N hN
  obtain ⟨M, rfl⟩ := Nat.exists_eq_add_of_le' hN
  rw [eval_max (ex_args q), (ex_sound ρ).linear.eq _ (M + 1) (by simp [CapstoneVar.engine])]
  simp only [CapstoneVar.engine, Finset.sum_range_one, CapstoneVar.ex_coeff, Nat.cast_injective.extend_apply, eval]
  rw [show M + 1 - 1 - 0 = M by omega, seq]
  push_cast
  rfl

/-- **C156**, a concrete case: all hypotheses hold for `x(n) = max(n x(n-1) + n!, 1)`; the answer has at 2 the value 6. -/
theorem C156_nonvacuous (ρ : String → ℝ) : RecReach maxEngine (exMax 1) (history 1) ∧ ∃ v, (query maxEngine .exact (history 1)).2 = some v ∧
    ∀ Y, eval (withX (realInterp 0) Y) (update ρ "n" ((2 : ℕ) : ℝ)) v = 6 := by
  refine ⟨history_reach 1, _, history_answer 1, fun Y => ?_⟩
  rw [C156_growing (ex_sound ρ) (ex_args 1) (ex_goodICs 1) (ex_wired ρ 1) (history_reach 1) (history_answer 1) (b := 1) (by norm_num)
    (fun X σ _ => by simp [eval]) (fun N hN => by rw [CapstoneVar.ex_coeff]; exact_mod_cast hN) (fun N _ => by positivity)
    (X := Function.extend Nat.cast (seq 1) 0) ?_ (seq_solves ρ 1) 2 Y]
  · rw [Nat.cast_injective.extend_apply]
    norm_num [seq, Nat.factorial]
  · rw [show (0 : ℝ) = ((0 : ℕ) : ℝ) by simp, Nat.cast_injective.extend_apply]
    simp [seq]

/-- **C156** fails if the argument falls below the number: for `x(n) = max(n x(n-1) + n!, -5)` the answer is the solution of `x(n) = n x(n-1) + n!` with
`x(0) = -5`; at 2 it has the value -6, the maximum is -5. -/
theorem C156_falling_refuted (ρ : String → ℝ) : RecReach maxEngine (exMax (-5)) (history (-5)) ∧
    ∃ v, (query maxEngine .exact (history (-5))).2 = some v ∧
    (∀ Y, eval (withX (realInterp 0) Y) (update ρ "n" ((2 : ℕ) : ℝ)) v = -6) ∧
    ∃ X : ℝ → ℝ, X 0 = -5 ∧ SolvesAt (realInterp 0) "n" (exMax (-5)) ρ X 1 ∧ X ((2 : ℕ) : ℝ) = -5 := by
  refine ⟨history_reach _, _, history_answer _, fun Y => ?_, Function.extend Nat.cast (seq (-5)) 0, ?_, seq_solves ρ _, ?_⟩
  · obtain ⟨X, hX, hXv⟩ := OnIC.forward_exists (ex_sound ρ).linear.order fun _ => (-5 : ℝ)
    have hX0 : X ((0 : ℕ) : ℝ) = -5 := hXv 0 (by simp [CapstoneVar.engine])
    have hX' : SolvesAt (realInterp 0) "n" CapstoneVar.exRhs ρ X 1 := hX
    rw [(linear_value (ex_sound ρ) (ex_args (-5)) (ex_goodICs (-5)) (ex_solve (-5))).2.2 X (by simpa [eval] using hX0) hX' 2 Y]
    have step : ∀ N : ℕ, X ((N + 1 : ℕ) : ℝ) = (N + 1) * X (N : ℝ) + (N + 1).factorial := by
      intro N
      rw [hX' (N + 1) (by omega), (ex_sound ρ).linear.eq X (N + 1) (by simp [CapstoneVar.engine])]
      simp only [CapstoneVar.engine, Finset.sum_range_one, CapstoneVar.ex_coeff]
      rw [show N + 1 - 1 - 0 = N by omega]
      push_cast
      rfl
    rw [step 1, step 0, hX0]
    norm_num [Nat.factorial]
  · rw [show (0 : ℝ) = ((0 : ℕ) : ℝ) by simp, Nat.cast_injective.extend_apply]
    simp [seq]
  · rw [Nat.cast_injective.extend_apply]
    norm_num [seq, Nat.factorial]

/-- **C156**, a concrete refusal: `x(n) = max(x(n-1) + 2 x(n-2) + 2, 1)`; the linear recurrence of order 2 is solved, and the initial condition `x(0) = 1` for
it is refused by an exception that leaves `compute_exact_solution()`. -/
theorem C156_throws_nonvacuous : solve CapstoneLinear.engine (.fn .max [SolveLin.exRhs, .num 1]) = .throws := by
  refine (C156_refused (a := .num 1) (f := SolveLin.exRhs) ?_ ?_ (Or.inl ?_) (Or.inl ?_)).2 CapstoneLinear.sol ?_
  · rfl
  · rfl
  · rfl
  · exact le_of_eq rfl
  · rfl

/-- **C156** also fails if the other argument does not contain the unknown (order zero): for `x(n) = max(n + 1, 5)` the answer is `n + 1`; at 1 it has the
value 2, the maximum is 5. -/
theorem C156_order_zero_refuted (ρ : String → ℝ) : ∃ v, solve OrderZero.engine (.fn .max [OrderZero.exRhs, .num 5]) = .solution v ∧
    (∀ Y, eval (withX (realInterp 0) Y) (update ρ "n" ((1 : ℕ) : ℝ)) v = 2) ∧
    ∀ X, SolvesAt (realInterp 0) "n" (.fn .max [OrderZero.exRhs, .num 5]) ρ X 1 → X ((1 : ℕ) : ℝ) = 5 := by
  have h : solve OrderZero.engine (.fn .max [OrderZero.exRhs, .num 5]) =
      .solution (OrderZero.engine.onIC OrderZero.exRhs ⟨.orderZero, 0, 0, 0⟩ [(0, .num 5)] OrderZero.exRhs) := by rfl
  refine ⟨_, h, fun Y => ?_, fun X hX => ?_⟩
  · rw [OrderZero.onIC_ex]
    simp [OrderZero.exRhs, eval]
    norm_num
  · rw [hX 1 le_rfl, eval_max (a := .num 5) (f := OrderZero.exRhs) (by simp [maxArgs, isLeaf, OrderZero.exRhs])]
    simp [OrderZero.exRhs, eval]
    norm_num

end Purrs.MaxRec
