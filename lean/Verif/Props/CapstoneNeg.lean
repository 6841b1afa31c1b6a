import Verif.Props.Capstone
import Verif.Props.Eliminate

/-!
# Recurrences written with `x(n+1), x(n+2), …`: from the right-hand side written by the user, through any calls, to the answer (C157)

The rewriting of negative decrements (C35), the state of the object and the treatment of the initial conditions (C136, C137) put together.  The recurrence
recorded by the object is not the one that the user wrote; what is proved of the answers is said about the one that the user wrote.
-/

set_option linter.unusedSectionVars false

namespace Purrs.CapstoneNeg

open Function (update)
open OrderRed (withX eval_noX SolvesAt IsSolution idxNe)
open Classify (classify)
open Eliminate (Rewriter RwOk findMax elimNegative)
open Capstone (SoundLinear GoodICs Fits LastKeys RightOn Closed)
open RecState

/-- The engine for which every right-hand side is classified as `e` is; used for the recorded right-hand side. -/
def redirect (E : Engine) (e : Expr) : Engine := { E with classify := fun _ => E.classify e }

section
variable {K : Type} [Field K] [CharZero K] {I : Interp K}

/-- The right-hand side `e` written by the user contains `x(n+m)`, `m` being the largest shift; it is rewritten into `r`, which is what is recorded; the
coefficient of `x(n+m)` does not vanish at the indices that count. -/
structure Shifted (I : Interp K) (E : Engine) (n : String) (ms : ℕ) (rw' : Rewriter) (ρ : String → K) (e r : Expr) (m : ℕ) : Prop where
  rw : RwOk n rw'
  negative : classify n ms e = .fail .negative
  recorded : (E.classify e).2.2 = r
  rewritten : r = elimNegative n rw' e
  shift : (findMax n e).1 = m
  idx : idxNe n e = true
  coeff : ∀ (X : K → K) (N : ℕ), (E.classify e).2.1.first + (E.classify e).2.1.order ≤ N + m →
    eval (withX I X) (update ρ n (N : K)) (findMax n e).2 ≠ 0

variable {E : Engine} {O : OnIC.Ops} {n : String} {B : String → Prop} {ρ : String → K} {e r : Expr} {ms m : ℕ} {rw' : Rewriter}
  {a : ℕ → ℕ → K} {p : ℕ → K} {P : Expr → Prop}

/-- The two recurrences have the same solutions. -/
theorem equivalent (hN : Shifted I E n ms rw' ρ e r m) {s s' : ℕ} (hs : s + m = s')
    (hs' : (E.classify e).2.1.first + (E.classify e).2.1.order ≤ s') (X : K → K) : SolvesAt I n e ρ X s ↔ SolvesAt I n r ρ X s' := by
  rw [hN.rewritten]
  refine Eliminate.C35_negative I hN.rw hN.idx X ρ s s' ?_ fun N h => hN.coeff X N (by omega)
  rw [hN.shift]
  exact_mod_cast hs.symm

theorem closed {Q : ICMap → Expr → Prop} (_ : (E.classify e).2.2 = r) (h : Closed (redirect E e) r P Q) : Closed E e P Q :=
  ⟨h.classified, h.ty, h.solve, h.rename, h.onIC, h.onICr⟩

/-- The sequence satisfies `x(n) = e` from `s` on, and takes the values given at the indices from `j` on. -/
def Takes (I : Interp K) (n : String) (e : Expr) (ρ : String → K) (ics : ICMap) (s j : ℕ) (X : K → K) : Prop :=
  SolvesAt I n e ρ X s ∧ ∀ q ∈ ics, j ≤ q.1 → X (q.1 : K) = eval (withX I X) ρ q.2

theorem takes_iff (hN : Shifted I E n ms rw' ρ e r m) {ics : ICMap} {s j : ℕ} (hs : s + m = j + (E.classify e).2.1.order)
    (hj : (E.classify e).2.1.first ≤ j) (X : K → K) : Takes I n e ρ ics s j X ↔ Fits I n r ρ ics (E.classify e).2.1.order j X :=
  and_congr_left' (equivalent hN hs (by omega) X)

/-- **C157.**  The user writes `x(n) = e` with `x(n+m)` in `e`, `m` being the largest shift; the recorded recurrence is linear of order `k`, from `f` on.
Whatever calls are made before, an answer of `exact_solution()`, `lower_bound()` or `upper_bound()` is the solution of what the user wrote: without
initial conditions, an expression that equals from `f` on every sequence that satisfies `x(n) = e` from `f + k - m` on; with initial conditions whose last
`k` indices are `j, …, j+k-1`, an expression that equals from `j` on the sequence (there is one) with the given values that satisfies `x(n) = e` from
`j + k - m` on. -/
theorem C157_answer_is_solution (hN : Shifted I E n ms rw' ρ e r m) (hS : SoundLinear I (redirect E e) O n B ρ r a p P) {s : RecState}
    (h : RecReach E e s) {w : Which} {v : Expr} (hv : (query E w s).2 = some v) :
    (s.ics = [] → ∀ (X : K → K) (t : ℕ), t + m = (E.classify e).2.1.first + (E.classify e).2.1.order → SolvesAt I n e ρ X t →
      ∀ N : ℕ, (E.classify e).2.1.first ≤ N → eval (withX I X) (update ρ n N) v = X N) ∧
    (s.ics ≠ [] → GoodICs I (redirect E e) O n B r P s.ics →
      ∃ j, (E.classify e).2.1.first ≤ j ∧ LastKeys s.ics (E.classify e).2.1.order j ∧
        ∀ t : ℕ, t + m = j + (E.classify e).2.1.order → (∃ X, Takes I n e ρ s.ics t j X) ∧
          ∀ X, Takes I n e ρ s.ics t j X → ∀ N : ℕ, j ≤ N → ∀ Y, eval (withX I Y) (update ρ n N) v = X N) := by
  obtain ⟨h1, h2, -⟩ := Capstone.answers (closed hN.recorded (Capstone.closed_linear hS)) h hv
  refine ⟨fun hi X t ht hX N hN' => ?_, fun hi hm => ?_⟩
  · exact hS.solution v (h1 hi) X ((equivalent hN ht le_rfl X).mp hX) N hN'
  · obtain ⟨j, h3, h4, ⟨X, hX⟩, h5⟩ := (h2 hi).2 hm
    exact ⟨j, h3, h4, fun t ht => ⟨⟨X, (takes_iff hN ht h3 X).mpr hX⟩, fun X hX N hN' Y => h5 X ((takes_iff hN ht h3 X).mp hX) N hN' Y⟩⟩

/-- **C157**, the values: with initial conditions in force the value returned by `evaluate_exact_solution(N)` (or by the evaluation of a bound) is the
value of the sequence that takes the given values and satisfies the recurrence that the user wrote. -/
theorem C157_evaluation_is_value (hN : Shifted I E "n" ms rw' ρ e r m) (hS : SoundLinear I (redirect E e) O "n" B ρ r a p P) {s : RecState}
    (h : RecReach E e s) (hi : s.ics ≠ []) (hm : GoodICs I (redirect E e) O "n" B r P s.ics) {w : Which} {v : Expr}
    (hv : (query E w s).2 = some v) (hb : idxNe "n" v = true) {j t : ℕ} (hj : LastKeys s.ics (E.classify e).2.1.order j)
    (hf : (E.classify e).2.1.first ≤ j) (ht : t + m = j + (E.classify e).2.1.order) {X : K → K} (hX : Takes I "n" e ρ s.ics t j X) {N : ℕ}
    (hN' : j ≤ N) : ∃ u, (evaluate (query E w) s N).2 = .value u ∧ ∀ Y, eval (withX I Y) ρ u = X N := by
  obtain ⟨-, h2, hinfo⟩ := Capstone.answers (closed hN.recorded (Capstone.closed_linear hS)) h hv
  exact Capstone.evaluation_value hS hi hm hv hinfo ((h2 hi).2 hm) hb hj ((takes_iff hN ht hf X).mp hX) hN'

/-- **C157**: if `x(n)` itself does not occur in `e`, the order of the recorded recurrence is at least `m`, so that there is an index `f + k - m`. -/
theorem C157_shift_le_order (hN : Shifted I E n ms rw' ρ e r m) (hS : SoundLinear I (redirect E e) O n B ρ r a p P)
    (hx : ∀ (N : ℕ) (X Y : K → K), (∀ v, v ≠ (N : K) → X v = Y v) →
      eval (withX I X) (update ρ n (N : K)) e = eval (withX I Y) (update ρ n (N : K)) e ∧
      eval (withX I X) (update ρ n (N : K)) (findMax n e).2 = eval (withX I Y) (update ρ n (N : K)) (findMax n e).2) (hm : 0 < m) :
    m ≤ (E.classify e).2.1.order := by
  classical
  by_contra hlt
  rw [not_le] at hlt
  obtain ⟨t, ht⟩ : ∃ t : ℕ, t = (E.classify e).2.1.first + (E.classify e).2.1.order := ⟨_, rfl⟩
  have hval : ∀ X : K → K, eval (withX I X) (update ρ n ((t + m : ℕ) : K)) r =
      (eval (withX I X) (update ρ n (t : K)) e - X t) / -eval (withX I X) (update ρ n (t : K)) (findMax n e).2 + X ((t + m : ℕ) : K) := by
    intro X
    rw [hN.rewritten, Eliminate.eval_elimNegative I hN.rw hN.idx, hN.shift]
    have : ((t + m : ℕ) : K) - ((m : ℤ) : K) = (t : K) := by push_cast; ring
    rw [this]
  have hlin := fun X => hS.linear.eq X (t + m) (show _ ≤ _ by show (E.classify e).2.1.first + (E.classify e).2.1.order ≤ _; omega)
  have hsame : eval (withX I fun v => if v = (t : K) then 1 else 0) (update ρ n ((t + m : ℕ) : K)) r
      = eval (withX I fun _ => 0) (update ρ n ((t + m : ℕ) : K)) r := by
    rw [hlin, hlin]
    congr 1
    refine Finset.sum_congr rfl fun i hi => ?_
    have hi' : i < (E.classify e).2.1.order := Finset.mem_range.mp hi
    have : ¬ (((t + m - 1 - i : ℕ) : K) = (t : K)) := by
      rw [Nat.cast_inj]; omega
    rw [if_neg this]
  have hoff : ∀ v, v ≠ (t : K) → (fun v => if v = (t : K) then (1 : K) else 0) v = (fun _ => (0 : K)) v := fun v hv => if_neg hv
  obtain ⟨e1, e2⟩ := hx t _ _ hoff
  have hne : ¬ (((t + m : ℕ) : K) = (t : K)) := by rw [Nat.cast_inj]; omega
  rw [hval, hval, e1, e2, if_pos rfl, if_neg hne] at hsame
  have hc := hN.coeff (fun _ => 0) t (by omega)
  have h3 : (1 : K) / eval (withX I fun _ => 0) (update ρ n (t : K)) (findMax n e).2 = 0 := by
    have h4 : ∀ A c : K, (A - 1) / -c + 0 = (A - 0) / -c + 0 → 1 / c = 0 := by
      intro A c h
      have h5 : (A - 1) / -c = A / -c - 1 / -c := sub_div ..
      rw [h5] at h
      have h6 : 1 / -c = -(1 / c) := by rw [div_neg]
      rw [h6] at h
      simp only [sub_zero, add_zero] at h
      have : A / -c + 1 / c - A / -c = 0 := by
        rw [sub_neg_eq_add] at h
        rw [h]; ring
      rw [add_sub_cancel_left] at this
      exact this
    exact h4 _ _ hsame
  rw [one_div, inv_eq_zero] at h3
  exact hc h3

end

end Purrs.CapstoneNeg
