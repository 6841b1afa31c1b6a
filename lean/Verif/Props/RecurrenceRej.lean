import Verif.Props.RecurrenceObj

/-!
# C68: a recurrence that cannot be classified is refused, always with the same reason
-/

namespace Purrs
open RecState

variable {E : Engine}

/-- The answer documented for each reason of refusal (`Recurrence::Solver_Status`,
src/Recurrence.defs.hh). -/
inductive Reported : ClStatus → SolverStatus → Prop
  | indeterminate : Reported .indeterminate .indeterminate
  | unsolvable : Reported .unsolvable .unsolvable
  | nonInteger : Reported .nonIntegerDecrement .malformed
  | malformed : Reported .malformed .malformed
  | domain : Reported .domainError .domainError
  | huge : Reported .hugeDecrement .tooComplex
  | complex : Reported .tooComplex .tooComplex

theorem reported_iff {c : ClStatus} (h : c ≠ .success) (r : SolverStatus) :
    mapStatus c = some r ↔ Reported c r := by
  constructor
  · intro h'
    cases c <;> simp [mapStatus] at h h' <;> subst h' <;> constructor
  · intro h'
    cases h' <;> rfl

/-- Nothing is known about the recurrence, and the classification, if done, has failed. -/
structure Rej (E : Engine) (e : Expr) (s : RecState) : Prop where
  exact : s.exact = none
  lower : s.lower = none
  upper : s.upper = none
  cl : (s.cl = .notYet ∧ s.rhs = e) ∨ s.cl = (E.classify e).1

theorem Rej.classify {e : Expr} {s : RecState} (h : Rej E e s) (h2 : (E.classify e).1 ≠ .notYet) :
    Rej E e (s.classify E) ∧ (s.classify E).cl = (E.classify e).1 := by
  obtain ⟨f1, f2, f3, -⟩ := classify_fields E s
  have hc : (s.classify E).cl = (E.classify e).1 := by
    rcases h.cl with ⟨h1, h3⟩ | h1
    · unfold RecState.classify
      rw [if_neg (by simp [h1])]
      simp [h3]
    · rw [classify_of (by rw [h1]; exact h2), h1]
  exact ⟨⟨f1.trans h.exact, f2.trans h.lower, f3.trans h.upper, .inr hc⟩, hc⟩

theorem Rej.tried {e : Expr} {s : RecState} (h : Rej E e s) :
    Rej E e { s with tried := true } := ⟨h.exact, h.lower, h.upper, h.cl⟩

theorem Rej.compute {e : Expr} {s : RecState} (h : Rej E e s) (h1 : (E.classify e).1 ≠ .success)
    (h2 : (E.classify e).1 ≠ .notYet) (w : Which) :
    Rej E e (compute E w s).1 ∧ (compute E w s).2 = mapStatus (E.classify e).1 := by
  cases w
  · simp only [Purrs.compute, computeExact]
    have h' := h.tried
    generalize ({ s with tried := true } : RecState) = t at h'
    rw [computeExactTried_fresh h'.exact (by rw [h'.lower]; simp)]
    obtain ⟨k1, k2⟩ := h'.classify h2
    rw [if_neg (by rw [k2]; exact h1)]
    exact ⟨k1, by rw [k2]⟩
  · simp only [Purrs.compute]
    rw [computeLower_fresh h.lower h.exact]
    obtain ⟨k1, k2⟩ := h.classify h2
    rw [if_neg (by rw [k2]; exact h1)]
    exact ⟨k1, by rw [k2]⟩
  · simp only [Purrs.compute]
    rw [computeUpper_fresh h.upper h.exact]
    obtain ⟨k1, k2⟩ := h.classify h2
    rw [if_neg (by rw [k2]; exact h1)]
    exact ⟨k1, by rw [k2]⟩

theorem Rej.setICs {e : Expr} {s : RecState} (h : Rej E e s) (h1 : (E.classify e).1 ≠ .success)
    (h2 : (E.classify e).1 ≠ .notYet) (m : ICMap) :
    Rej E e (RecState.setICs E s m).1 ∧ (RecState.setICs E s m).2 = .runtimeError := by
  have h' : Rej E e (if s.ics ≠ [] then s.resetICs else s) := by
    split_ifs
    · exact ⟨h.exact, h.lower, h.upper, h.cl⟩
    · exact h
  obtain ⟨k1, k2⟩ := h'.classify h2
  unfold RecState.setICs setICsClassified
  rw [if_pos (by rw [k2]; exact h1)]
  exact ⟨k1, rfl⟩

theorem Rej.step {e : Expr} {s : RecState} (h : Rej E e s) (h1 : (E.classify e).1 ≠ .success)
    (h2 : (E.classify e).1 ≠ .notYet) (op : RecOp) : Rej E e (s.step E op) := by
  cases op with
  | setICs m => exact (h.setICs h1 h2 m).1
  | resetICs => exact ⟨h.exact, h.lower, h.upper, h.cl⟩
  | computeExact => exact (h.compute h1 h2 .exact).1
  | computeLower => exact (h.compute h1 h2 .lower).1
  | computeUpper => exact (h.compute h1 h2 .upper).1
  | getExact => simp only [RecState.step]; rw [getExact_none h.exact]; exact h
  | getLower => simp only [RecState.step]; rw [getLower_none h.lower]; exact h
  | getUpper => simp only [RecState.step]; rw [getUpper_none h.upper]; exact h

/-- **C68.** If the classifier refuses `e` then, after any sequence of calls on the object, each of
`compute_exact_solution`, `compute_lower_bound` and `compute_upper_bound` answers the documented
status for the reason of the refusal and no other, no solution or bound can be read, and no initial
condition is accepted (`set_initial_conditions` throws a run-time error). -/
theorem C68_refused (e : Expr) (h1 : (E.classify e).1 ≠ .success) (h2 : (E.classify e).1 ≠ .notYet)
    {s : RecState} (hs : RecReach E e s) (w : Which) :
    (∀ r, (compute E w s).2 = some r ↔ Reported (E.classify e).1 r) ∧
    (∃ r, (compute E w s).2 = some r) ∧
    (query E w s).2 = none ∧ ∀ m, (setICs E s m).2 = .runtimeError := by
  have h : Rej E e s := by
    induction hs with
    | new => exact ⟨rfl, rfl, rfl, .inl ⟨rfl, rfl⟩⟩
    | step op _ ih => exact ih.step h1 h2 op
  refine ⟨fun r => ?_, ?_, ?_, ?_⟩
  · rw [(h.compute h1 h2 w).2, reported_iff h1]
  · rw [(h.compute h1 h2 w).2]
    revert h1 h2
    cases (E.classify e).1 <;> simp [mapStatus]
  · rw [query_none_iff]
    cases w
    · exact h.exact
    · exact h.lower
    · exact h.upper
  · intro m
    rw [(h.setICs h1 h2 m).2]

/-- A refusing classifier, after a history with failed calls of each kind. -/
theorem C68_example : ∃ s, RecReach { demoEngine with
      classify := fun e => (.hugeDecrement, ⟨.unknown, 0, 0, 0⟩, e) } (.num 1) s ∧
    s.tried = true ∧ s.cl = .hugeDecrement :=
  ⟨_, .step .getLower (.step (.setICs [(1, .num 3)]) (.step .computeExact .new)), rfl, rfl⟩

end Purrs
