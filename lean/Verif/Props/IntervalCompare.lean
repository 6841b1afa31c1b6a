import Verif.Props.IntervalOps
import Verif.Props.IntervalArith
import Verif.Model.IntervalMore

/-!
# C159: `lcompare`; C54: the constructors
-/

namespace Purrs.Interval

open Classical

/-- **C54**: the interval of one number. -/
theorem C54_point_mem (t r : ℝ) : Mem (Iv.point t) r ↔ r = t := by
  rw [mem_def]
  have e : (Iv.point (t : EReal)).lo = ⟨t, 0⟩ ∧ (Iv.point (t : EReal)).up = ⟨t, 0⟩ := by simp [Iv.point, lbd, ubd]
  rw [e.1, e.2, above_coe (s := t) rfl, below_coe (s := t) rfl]
  constructor
  · rintro ⟨h1, h2, -⟩
    rcases h1 with h1 | h1 <;> rcases h2 with h2 | h2 <;> linarith
  · rintro rfl
    refine ⟨Or.inr ⟨rfl, rfl⟩, Or.inr ⟨rfl, rfl⟩, fun h => ?_⟩
    obtain ⟨z, hz⟩ : isInt (r : EReal) := by simpa [Iv.point] using h
    exact ⟨z, EReal.coe_injective hz⟩

/-- **C54**: the complete constructor: the reals, or the integers, between the boundaries. -/
theorem C54_mk_mem (l u : Bd) (t : Bool) (hl : LoOk l) (hu : UpOk u) (r : ℝ) :
    Mem (Iv.mk' l u t) r ↔ Above l r ∧ Below u r ∧ (t = true → ∃ z : ℤ, r = z) := by
  unfold Iv.mk'
  split_ifs with h
  · rw [C54_setInteger_mem ⟨l, u, t⟩ hl hu]; simp [h]
  · rw [C54_setMaybeReal_mem]; simp [h]

/-- The comparison in terms of the boundaries. -/
theorem lcompare_cases (x y : Iv) :
    (lcompare x y = -1 ∧ (x.lo.key < y.lo.key ∨ x.lo.key = y.lo.key ∧ x.up.key < y.up.key)) ∨
    (lcompare x y = 1 ∧ (y.lo.key < x.lo.key ∨ y.lo.key = x.lo.key ∧ y.up.key < x.up.key)) ∨
    (lcompare x y = 0 ∧ x.lo.key = y.lo.key ∧ x.up.key = y.up.key) := by
  unfold lcompare
  simp only [Bd.lt_key]
  split_ifs with h1 h2 h3 h4
  · exact Or.inl ⟨rfl, Or.inl h1⟩
  · exact Or.inr (Or.inl ⟨rfl, Or.inl h2⟩)
  · exact Or.inl ⟨rfl, Or.inr ⟨le_antisymm (not_lt.1 h2) (not_lt.1 h1), h3⟩⟩
  · exact Or.inr (Or.inl ⟨rfl, Or.inr ⟨le_antisymm (not_lt.1 h1) (not_lt.1 h2), h4⟩⟩)
  · exact Or.inr (Or.inr ⟨rfl, le_antisymm (not_lt.1 h2) (not_lt.1 h1), le_antisymm (not_lt.1 h4) (not_lt.1 h3)⟩)

/-- **C159.**  The comparison is a total order: exchanging the arguments changes the sign, -/
theorem C159_antisymmetric (x y : Iv) : lcompare y x = - lcompare x y := by
  rcases lcompare_cases x y with ⟨h, q⟩ | ⟨h, q⟩ | ⟨h, q⟩ <;> rcases lcompare_cases y x with ⟨g, p⟩ | ⟨g, p⟩ | ⟨g, p⟩ <;> rw [h, g] <;>
    first
      | rfl
      | exfalso
        rcases q with q | q <;> rcases p with p | p
        all_goals first
          | exact lt_asymm q p
          | exact absurd p.1 q.ne'
          | exact absurd p.1 q.ne
          | exact absurd q.1 p.ne'
          | exact absurd q.1 p.ne
          | exact lt_asymm q.2 p.2
      | exfalso
        rcases q with q | q
        · exact absurd p.1 q.ne'
        · exact absurd p.2 q.2.ne'
      | exfalso
        rcases q with q | q
        · exact absurd p.1 q.ne
        · exact absurd p.2 q.2.ne
      | exfalso
        rcases p with p | p
        · exact absurd q.1 p.ne'
        · exact absurd q.2 p.2.ne'
      | exfalso
        rcases p with p | p
        · exact absurd q.1 p.ne
        · exact absurd q.2 p.2.ne

/-- **C159**: it is 0 exactly for intervals with the same boundaries, -/
theorem C159_zero (x y : Iv) : lcompare x y = 0 ↔ x.lo = y.lo ∧ x.up = y.up := by
  constructor
  · intro h0
    rcases lcompare_cases x y with ⟨h, q⟩ | ⟨h, q⟩ | ⟨h, q⟩
    · rw [h] at h0; cases h0
    · rw [h] at h0; cases h0
    · exact ⟨Bd.key_inj q.1, Bd.key_inj q.2⟩
  · rintro ⟨h1, h2⟩
    unfold lcompare
    simp [h1, h2, Bd.lt_key]

/-- **C159**: and what is not greater and not greater is not greater. -/
theorem C159_transitive (x y z : Iv) (h1 : lcompare x y ≤ 0) (h2 : lcompare y z ≤ 0) : lcompare x z ≤ 0 := by
  have key : ∀ a b : Iv, lcompare a b ≤ 0 ↔ toLex (a.lo.key, a.up.key) ≤ toLex (b.lo.key, b.up.key) := by
    intro a b
    rw [Prod.Lex.toLex_le_toLex]
    rcases lcompare_cases a b with ⟨h, q⟩ | ⟨h, q⟩ | ⟨h, q⟩
    · rw [h]
      refine ⟨fun _ => q.imp id fun q => ⟨q.1, q.2.le⟩, fun _ => by norm_num⟩
    · rw [h]
      refine ⟨fun c => absurd c (by norm_num), fun c => ?_⟩
      exfalso
      rcases c with c | c <;> rcases q with q | q
      · exact lt_asymm c q
      · exact absurd q.1 c.ne'
      · exact absurd c.1 q.ne'
      · exact absurd q.2 (not_lt.2 c.2)
    · rw [h]
      exact ⟨fun _ => Or.inr ⟨q.1, q.2.le⟩, fun _ => le_rfl⟩
  rw [key] at h1 h2 ⊢
  exact h1.trans h2

/-- **C159**: an interval whose lower boundary is below comes first, whatever the upper boundaries. -/
theorem C159_lower_first (x y : Iv) (h : x.lo.v < y.lo.v) : lcompare x y = -1 := by
  unfold lcompare
  rw [if_pos (show x.lo.lt y.lo from Or.inl h)]

/-- **C159**: with the same lower boundary the upper one decides. -/
theorem C159_upper_second (x y : Iv) (h : x.lo = y.lo) (h2 : x.up.v < y.up.v) : lcompare x y = -1 := by
  have hn : ∀ b : Bd, ¬ b.lt b := fun b q => by rw [Bd.lt_key] at q; exact lt_irrefl _ q
  unfold lcompare
  rw [h, if_neg (hn _), if_neg (hn _), if_pos (show x.up.lt y.up from Or.inl h2)]

/-- **C159**, concrete cases: [1, 3] comes before [2, 2], and before [1, 4]. -/
theorem C159_nonvacuous : lcompare (cl 1 3 false) (cl 2 2 true) = -1 ∧ lcompare (cl 1 3 false) (cl 1 4 false) = -1 := by
  refine ⟨C159_lower_first _ _ ?_, C159_upper_second _ _ rfl ?_⟩
  · show ((1 : ℝ) : EReal) < ((2 : ℝ) : EReal)
    exact_mod_cast (by norm_num : (1 : ℝ) < 2)
  · show ((3 : ℝ) : EReal) < ((4 : ℝ) : EReal)
    exact_mod_cast (by norm_num : (3 : ℝ) < 4)

end Purrs.Interval
