import Verif.Model.Zeilberger

/-!
# C163: the orders tried by Zeilberger's algorithm
-/

namespace Purrs.Zeilberger

theorem tryOrders_spec {α : Type} (f : ℕ → Option α) (fuel : ℕ) : ∀ i, 10 ≤ i + fuel → i ≤ 9 →
    (∃ k a, tryOrders f i fuel = some (k, a) ∧ i ≤ k ∧ k ≤ 9 ∧ f k = some a ∧ ∀ j, i ≤ j → j < k → f j = none) ∨
    (tryOrders f i fuel = none ∧ ∀ j, i ≤ j → j ≤ 9 → f j = none) := by
  induction fuel with
  | zero => intro i h1 h2; omega
  | succ fuel ih =>
    intro i h1 h2
    simp only [tryOrders, show i < 10 by omega, if_true]
    cases hf : f i with
    | some a => exact .inl ⟨i, a, rfl, le_refl _, h2, hf, fun j _ _ => by omega⟩
    | none =>
      have low : ∀ j, i ≤ j → f j ≠ none → i + 1 ≤ j := fun j hj hn => by
        rcases Nat.eq_or_lt_of_le hj with rfl | h
        · exact absurd hf hn
        · exact h
      dsimp only
      split
      · refine .inr ⟨rfl, fun j hj hj9 => ?_⟩
        by_contra hn
        have := low j hj hn
        omega
      · rcases ih (i + 1) (by omega) (by omega) with ⟨k, a, h3, h4, h5, h6, h7⟩ | ⟨h3, h4⟩
        · refine .inl ⟨k, a, h3, by omega, h5, h6, fun j hj hjk => ?_⟩
          by_contra hn
          exact hn (h7 j (low j hj hn) hjk)
        · refine .inr ⟨h3, fun j hj hj9 => ?_⟩
          by_contra hn
          exact hn (h4 j (low j hj hn) hj9)

/-- **C163.**  `zeilberger_algorithm` finds a solution exactly if one of the orders 1 to 9 gives
one, and then returns that of the smallest such order. -/
theorem C163_smallest_order {α : Type} (f : ℕ → Option α) (k : ℕ) (a : α) :
    algorithm f = some (k, a) ↔ 1 ≤ k ∧ k ≤ 9 ∧ f k = some a ∧ ∀ j, 1 ≤ j → j < k → f j = none := by
  rcases tryOrders_spec f 10 1 (by norm_num) (by norm_num) with ⟨k', a', h1, h2, h3, h4, h5⟩ | ⟨h1, h2⟩
  · unfold algorithm
    rw [h1]
    constructor
    · intro h; cases h; exact ⟨h2, h3, h4, h5⟩
    · rintro ⟨g1, g2, g3, g4⟩
      have : k = k' := by
        rcases Nat.lt_trichotomy k k' with h | h | h
        · rw [h5 k g1 h] at g3; cases g3
        · exact h
        · rw [g4 k' h2 h] at h4; cases h4
      subst this
      rw [g3] at h4; cases h4; rfl
  · unfold algorithm
    rw [h1]
    constructor
    · intro h; cases h
    · rintro ⟨g1, g2, g3, _⟩
      rw [h2 k g1 g2] at g3; cases g3

/-- **C163.**  It fails exactly if all these orders fail. -/
theorem C163_failure {α : Type} (f : ℕ → Option α) :
    algorithm f = none ↔ ∀ j, 1 ≤ j → j ≤ 9 → f j = none := by
  rcases tryOrders_spec f 10 1 (by norm_num) (by norm_num) with ⟨k, a, h1, h2, h3, h4, h5⟩ | ⟨h1, h2⟩
  · unfold algorithm
    rw [h1]
    refine ⟨fun h => by (cases h), fun h => ?_⟩
    rw [h k h2 h3] at h4; cases h4
  · unfold algorithm
    rw [h1]
    exact ⟨fun _ => h2, fun _ => rfl⟩

/-- A sequence that needs order 10 is not found, one of order 2 is. -/
theorem C163_nonvacuous : algorithm (fun i => if i = 10 then some i else none) = none ∧
    algorithm (fun i => if 2 ≤ i then some (i * i) else none) = some (2, 4) := by
  constructor
  · rw [C163_failure]; intro j _ h; simp; omega
  · rw [C163_smallest_order]; refine ⟨by norm_num, by norm_num, by simp, fun j h1 h2 => ?_⟩; simp; omega

end Purrs.Zeilberger
