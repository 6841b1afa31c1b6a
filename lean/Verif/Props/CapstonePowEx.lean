import Verif.Props.CapstonePow

/-!
# A concrete history for C158: `x(n) = x(n/3)^(3/2)`
-/

set_option linter.unusedSectionVars false

namespace Purrs.CapstonePow

open Bounds (Cmp Sums val)
open NonLinear (Want powerBound exists_power)
open CapstoneDiv (Solves)
open RecState

/-- A comparison that never decides. -/
def exCmp : Expr → Expr → Cmp := fun _ _ => .unknown

/-- No sum is computed. -/
def exSums : Sums := ⟨fun _ _ _ _ => .num 0, fun _ _ _ => false⟩

/-- The bound asked for. -/
def want : BoundKind → Want
  | .lower => .lower
  | .upper => .upper

/-- The bound computed for `x(n) = x(n/3)^(3/2)`. -/
noncomputable def exBound (k : BoundKind) : Expr :=
  (powerBound "n" exCmp exSums id (3 / 2) (3 : ℕ) 1 (want k)).getD (.num 0)

/-- The engine that knows this equation. -/
noncomputable def exEngine : Engine where
  classify := fun e => (.success, ⟨.nonLinear, 0, 1, 2⟩, e)
  solve := fun _ _ _ => .error .tooComplex
  bound := fun _ _ k => .ok (exBound k)
  onIC := fun _ _ _ x => x
  rename := id

theorem ex_some (k : BoundKind) :
    powerBound "n" exCmp exSums id (3 / 2) (3 : ℕ) 1 (want k) = some (exBound k) := by
  have h : ∃ v, powerBound "n" exCmp exSums id (3 / 2) (3 : ℕ) 1 (want k) = some v :=
    ⟨_, NonLinear.powerBound_some "n" exCmp exSums id 1 (by norm_num) (by norm_num) (want k) (by cases k <;> simp [want])⟩
  obtain ⟨v, hv⟩ := h
  unfold exBound
  rw [hv]
  rfl

theorem ex_wired : Wired exEngine "n" 1000 (fun _ => 0) exCmp exSums id (3 / 2) 3 1 where
  classify := fun _ => ⟨rfl, rfl⟩
  solve := fun _ _ h => by cases h
  lower := fun x h => by
    cases h
    exact ex_some .lower
  upper := fun x h => by
    cases h
    exact ex_some .upper
  simp := fun _ _ _ => rfl
  rename := fun _ _ _ => rfl

/-- The history: the exact solution is asked for in vain, `x(1) = 5` is given and taken back, the lower and the upper bound are computed. -/
noncomputable def exState : RecState :=
  (((((RecState.new (rhs "n" (3 / 2) 3)).step exEngine .computeExact).step exEngine (.setICs [(1, .num 5)])).step exEngine (.setICs [])).step
    exEngine .computeLower).step exEngine .computeUpper

theorem ex_ics : exState.ics = [] := rfl

theorem ex_query (w : Which) (hw : w ≠ .exact) : ∃ v, (query exEngine w exState).2 = some v := by
  cases w with
  | exact => exact absurd rfl hw
  | lower => exact ⟨_, rfl⟩
  | upper => exact ⟨_, rfl⟩

/-- **C158**, a concrete case: all hypotheses hold, both bounds are answered after the history above, and they bound a function that satisfies the
equation that the user wrote, takes the values `2` and `3` at `1` and `2`, and is not constant. -/
theorem C158_nonvacuous : Wired exEngine "n" 1000 (fun _ => 0) exCmp exSums id (3 / 2) 3 1 ∧ RecReach exEngine (rhs "n" (3 / 2) 3) exState ∧
    exState.ics = [] ∧ ∃ ξ : ℝ → ℝ, Solves "n" (fun _ => 0) (rhs "n" (3 / 2) 3) 3 ξ ∧ ξ 1 = 2 ∧ ξ 2 = 3 ∧ ξ 6 = 3 ^ (3 / 2 : ℝ) ∧
      ∃ l u, (query exEngine .lower exState).2 = some l ∧ (query exEngine .upper exState).2 = some u ∧
        ∀ N : ℕ, 1 ≤ N → val ξ (fun _ => 0) "n" l N ≤ ξ N ∧ ξ N ≤ val ξ (fun _ => 0) "n" u N := by
  have hr : RecReach exEngine (rhs "n" (3 / 2) 3) exState := .step _ (.step _ (.step _ (.step _ (.step _ .new))))
  obtain ⟨ξ, h1, h2⟩ := exists_power ((3 / 2 : ℚ) : ℝ) (b := 3) (by norm_num) (fun i => if i = 1 then 2 else 3) (by intro i; split <;> norm_num)
  have hx1 : ξ 1 = 2 := by simpa using h2 1 le_rfl (by norm_num)
  have hx2 : ξ 2 = 3 := by simpa using h2 2 (by norm_num) (by norm_num)
  have hs : Solves "n" (fun _ => 0) (rhs "n" (3 / 2) 3) 3 ξ := (solves_iff _ (by norm_num) ξ).mpr h1
  have hpos : ∀ i : ℕ, 1 ≤ i → i < 3 → 1 ≤ ξ i := fun i hi hi3 => by rw [h2 i hi hi3]; split <;> norm_num
  obtain ⟨l, hl⟩ := ex_query .lower (by simp)
  obtain ⟨u, hu⟩ := ex_query .upper (by simp)
  have hL := (C158_answer_is_bound ex_wired (by norm_num) (by norm_num) (by norm_num) le_rfl hr ex_ics hl).2 ξ hs hpos
  have hU := (C158_answer_is_bound ex_wired (by norm_num) (by norm_num) (by norm_num) le_rfl hr ex_ics hu).2 ξ hs hpos
  refine ⟨ex_wired, hr, ex_ics, ξ, hs, hx1, hx2, ?_, l, u, hl, hu, fun N hN => ⟨hL N hN, hU N hN⟩⟩
  have h6 := h1 6 (by norm_num)
  norm_num [hx2] at h6 ⊢
  exact h6

end Purrs.CapstonePow
