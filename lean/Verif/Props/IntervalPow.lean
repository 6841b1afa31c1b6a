import Verif.Props.IntervalFun
import Mathlib.Tactic.IntervalCases
import Mathlib.Tactic.Linarith

/-!
# C129, C130: powers of intervals
-/

namespace Purrs.Interval

open Classical

theorem full_mem (r : ℝ) : Mem (Iv.full false) r :=
  ⟨Or.inl (EReal.bot_lt_coe _), Or.inl (EReal.coe_lt_top _), by simp [Iv.full]⟩

theorem powE_real (a y : ℝ) : powE (a : EReal) (y : EReal) = ((a ^ y : ℝ) : EReal) := rfl

/-! ## Corners for exponents that vary -/

/-- The lower corner at the smallest exponent, for bases from 1 on. -/
theorem lpow_low {b c : Bd} {r s : ℝ} (hb1 : 1 ≤ b.v) (hb : Above b r) (hc : Above c s) (hc0 : 0 ≤ c.v) (hbf : b.f = 0 ∨ b.f = 1) :
    Above (lpow b c) (r ^ s) := by
  have hbr := Above.le hb
  have hcs := Above.le hc
  have r1 : 1 ≤ r := by exact_mod_cast hb1.trans hbr
  have s0 : 0 ≤ s := by exact_mod_cast hc0.trans hcs
  have b0 : b.v ≠ 0 := by intro q; rw [q] at hb1; exact absurd hb1 (by norm_num)
  unfold lpow
  rw [if_neg b0]
  have ge1 : 1 ≤ r ^ s := Real.one_le_rpow r1 s0
  by_cases c0 : c.v = 0
  · rw [if_pos c0]
    rcases ge1.lt_or_eq with q | q
    · exact Or.inl (show (1 : EReal) < _ by exact_mod_cast q)
    · refine Or.inr ⟨show (1 : EReal) = _ by exact_mod_cast q, ?_⟩
      show (if c.closed = true then (0 : ℤ) else b.f) = 0
      by_cases hcc : c.closed = true
      · rw [if_pos hcc]
      · rw [if_neg hcc]
        have hs : s ≠ 0 := by
          rintro rfl
          exact hcc ((closed_iff c).2 (Above.near hc (by rw [c0]; rfl)))
        have hr : r = 1 := by
          by_contra g
          have := Real.one_lt_rpow (lt_of_le_of_ne r1 (Ne.symm g)) (lt_of_le_of_ne s0 (Ne.symm hs))
          linarith
        refine Above.near hb (le_antisymm hbr ?_)
        rw [hr]; exact_mod_cast hb1
  rw [if_neg c0]
  by_cases h1 : b.v = 1
  · rw [if_neg (not_not.2 h1)]
    rcases hbf with f | f
    · rcases ge1.lt_or_eq with q | q
      · exact Or.inl (by rw [h1]; exact_mod_cast q)
      · exact Or.inr ⟨by rw [h1]; exact_mod_cast q, f⟩
    · left
      have hr : 1 < r := by
        rcases hb with q | q
        · rw [h1] at q; exact_mod_cast q
        · omega
      have hs : 0 < s := by
        have : 0 < c.v := lt_of_le_of_ne hc0 (Ne.symm c0)
        exact_mod_cast this.trans_le hcs
      rw [h1]
      exact_mod_cast Real.one_lt_rpow hr hs
  rw [if_pos h1]
  have hbt : b.v ≠ ⊤ := by intro q; rw [q] at hbr; exact absurd (top_le_iff.1 hbr) (EReal.coe_ne_top _)
  have hct : c.v ≠ ⊤ := by intro q; rw [q] at hcs; exact absurd (top_le_iff.1 hcs) (EReal.coe_ne_top _)
  have hbb : b.v ≠ ⊥ := by intro q; rw [q] at hb1; exact absurd (le_bot_iff.1 hb1) (EReal.coe_ne_bot 1)
  have hcb : c.v ≠ ⊥ := by intro q; rw [q] at hc0; simp at hc0
  obtain ⟨a, ha⟩ : ∃ a : ℝ, b.v = a := ⟨_, (EReal.coe_toReal hbt hbb).symm⟩
  obtain ⟨u, hu⟩ : ∃ u : ℝ, c.v = u := ⟨_, (EReal.coe_toReal hct hcb).symm⟩
  have a1 : 1 < a := by
    have : (1 : EReal) < b.v := lt_of_le_of_ne hb1 (Ne.symm h1)
    rw [ha] at this; exact_mod_cast this
  have u0 : 0 < u := by
    have : 0 < c.v := lt_of_le_of_ne hc0 (Ne.symm c0)
    rw [hu] at this; exact_mod_cast this
  have ar : a ≤ r := by rw [ha] at hbr; exact_mod_cast hbr
  have us : u ≤ s := by rw [hu] at hcs; exact_mod_cast hcs
  have sp : 0 < s := u0.trans_le us
  have e1 : a ^ u ≤ a ^ s := Real.rpow_le_rpow_of_exponent_le a1.le us
  have e2 : a ^ s ≤ r ^ s := Real.rpow_le_rpow (by linarith) ar s0
  rw [above_coe (s := a ^ u) (by show powE b.v c.v = _; rw [ha, hu]; rfl)]
  rcases (e1.trans e2).lt_or_eq with q | q
  · exact Or.inl q
  · right
    refine ⟨q, ?_⟩
    have hus : u = s := by
      by_contra g
      have := Real.rpow_lt_rpow_of_exponent_lt a1 (lt_of_le_of_ne us g)
      linarith
    have har : a = r := by
      by_contra g
      have := Real.rpow_lt_rpow (by linarith) (lt_of_le_of_ne ar g) sp
      linarith
    have f1 : b.f = 0 := Above.near hb (by rw [ha, har])
    have f2 : c.f = 0 := Above.near hc (by rw [hu, hus])
    show (if b.closed = true then (if c.closed = true then (0 : ℤ) else 1) else b.f) = 0
    rw [if_pos ((closed_iff b).2 f1), if_pos ((closed_iff c).2 f2)]

/-- The lower corner at the greatest exponent, for bases up to 1. -/
theorem lpow_high {b c : Bd} {r s : ℝ} (hb0 : 0 ≤ b.v) (hb1 : b.v ≤ 1) (hb : Above b r) (hc : Below c s) (s0 : 0 ≤ s)
    (hbf : b.f = 0 ∨ b.f = 1) (hb1f : b.v = 1 → b.f = 0) : Above (lpow b c) (r ^ s) := by
  have hbr := Above.le hb
  have hcs := Below.le hc
  have r0 : 0 ≤ r := by exact_mod_cast hb0.trans hbr
  unfold lpow
  by_cases b0 : b.v = 0
  · rw [if_pos b0]
    rcases hbf with f | f
    · rcases (Real.rpow_nonneg r0 s).lt_or_eq with q | q
      · exact Or.inl (by rw [b0]; exact_mod_cast q)
      · exact Or.inr ⟨by rw [b0, ← q]; rfl, f⟩
    · left
      have : 0 < r := by
        rcases hb with q | q
        · rw [b0] at q; exact_mod_cast q
        · omega
      rw [b0]; exact_mod_cast Real.rpow_pos_of_pos this s
  rw [if_neg b0]
  by_cases c0 : c.v = 0
  · rw [if_pos c0]
    have hs : s = 0 := le_antisymm (by rw [c0] at hcs; exact_mod_cast hcs) s0
    have f : c.f = 0 := Below.near hc (by rw [c0, hs]; rfl)
    refine Or.inr ⟨?_, by simp [(closed_iff c).2 f]⟩
    rw [hs, Real.rpow_zero]; rfl
  rw [if_neg c0]
  by_cases h1 : b.v = 1
  · rw [if_neg (not_not.2 h1)]
    have r1 : 1 ≤ r := by rw [h1] at hbr; exact_mod_cast hbr
    have ge1 : 1 ≤ r ^ s := Real.one_le_rpow r1 s0
    rcases ge1.lt_or_eq with q | q
    · exact Or.inl (by rw [h1]; exact_mod_cast q)
    · exact Or.inr ⟨by rw [h1]; exact_mod_cast q, hb1f h1⟩
  rw [if_pos h1]
  have hbt : b.v ≠ ⊤ := by intro q; rw [q] at hbr; exact absurd (top_le_iff.1 hbr) (EReal.coe_ne_top _)
  have hbb : b.v ≠ ⊥ := by intro q; rw [q] at hb0; simp at hb0
  have hcb : c.v ≠ ⊥ := by intro q; rw [q] at hcs; exact absurd (le_bot_iff.1 hcs) (EReal.coe_ne_bot _)
  obtain ⟨a, ha⟩ : ∃ a : ℝ, b.v = a := ⟨_, (EReal.coe_toReal hbt hbb).symm⟩
  have a1 : a < 1 := by
    have : b.v < 1 := lt_of_le_of_ne hb1 h1
    rw [ha] at this; exact_mod_cast this
  have a0 : 0 < a := by
    have : 0 < b.v := lt_of_le_of_ne hb0 (Ne.symm b0)
    rw [ha] at this; exact_mod_cast this
  have ar : a ≤ r := by rw [ha] at hbr; exact_mod_cast hbr
  have rp : 0 < r := a0.trans_le ar
  by_cases hct : c.v = ⊤
  · left
    show powE b.v c.v < _
    rw [ha, hct]
    show (if 1 < |a| then (⊤ : EReal) else 0) < _
    rw [if_neg (by rw [abs_of_pos a0]; linarith)]
    exact_mod_cast Real.rpow_pos_of_pos rp s
  obtain ⟨u, hu⟩ : ∃ u : ℝ, c.v = u := ⟨_, (EReal.coe_toReal hct hcb).symm⟩
  have us : s ≤ u := by rw [hu] at hcs; exact_mod_cast hcs
  have e1 : a ^ u ≤ a ^ s := Real.rpow_le_rpow_of_exponent_ge a0 a1.le us
  have e2 : a ^ s ≤ r ^ s := Real.rpow_le_rpow a0.le ar s0
  rw [above_coe (s := a ^ u) (by show powE b.v c.v = _; rw [ha, hu]; rfl)]
  rcases (e1.trans e2).lt_or_eq with q | q
  · exact Or.inl q
  · right
    refine ⟨q, ?_⟩
    have hus : s = u := by
      by_contra g
      have := Real.rpow_lt_rpow_of_exponent_gt a0 a1 (lt_of_le_of_ne us g)
      linarith
    have sp : 0 < s := by
      refine lt_of_le_of_ne s0 (Ne.symm ?_)
      rintro rfl
      exact c0 (by rw [hu, ← hus]; rfl)
    have har : a = r := by
      by_contra g
      have := Real.rpow_lt_rpow a0.le (lt_of_le_of_ne ar g) sp
      linarith
    have f1 : b.f = 0 := Above.near hb (by rw [ha, har])
    have f2 : c.f = 0 := Below.near hc (by rw [hu, hus])
    show (if b.closed = true then (if c.closed = true then (0 : ℤ) else 1) else b.f) = 0
    rw [if_pos ((closed_iff b).2 f1), if_pos ((closed_iff c).2 f2)]

/-- The upper corner at the greatest exponent, for bases from 1 on. -/
theorem upow_high {b c : Bd} {r s : ℝ} (hb1 : 1 ≤ b.v) (r0 : 0 ≤ r) (hb : Below b r) (hc : Below c s) (s0 : 0 ≤ s)
    (hb1f : b.v = 1 → b.f = 0) : Below (upow b c) (r ^ s) := by
  have hbr := Below.le hb
  have hcs := Below.le hc
  have b0 : b.v ≠ 0 := by intro q; rw [q] at hb1; exact absurd hb1 (by norm_num)
  unfold upow
  by_cases c0 : c.v = 0
  · rw [if_pos c0]
    have hs : s = 0 := le_antisymm (by rw [c0] at hcs; exact_mod_cast hcs) s0
    have f : c.f = 0 := Below.near hc (by rw [c0, hs]; rfl)
    refine Or.inr ⟨?_, by simp [(closed_iff c).2 f]⟩
    rw [hs, Real.rpow_zero]; rfl
  rw [if_neg c0]
  have cpos : 0 < c.v := lt_of_le_of_ne ((coe_nonneg' s0).trans hcs) (Ne.symm c0)
  by_cases h1 : b.v = 1
  · rw [if_neg (by intro q; exact q.2 h1)]
    have r1 : r ≤ 1 := by rw [h1] at hbr; exact_mod_cast hbr
    have le1 : r ^ s ≤ 1 := Real.rpow_le_one r0 r1 s0
    rcases le1.lt_or_eq with q | q
    · exact Or.inl (by rw [h1]; exact_mod_cast q)
    · exact Or.inr ⟨by rw [h1]; exact_mod_cast q, hb1f h1⟩
  rw [if_pos ⟨b0, h1⟩]
  have hcb : c.v ≠ ⊥ := by intro q; rw [q] at hcs; exact absurd (le_bot_iff.1 hcs) (EReal.coe_ne_bot _)
  have hbb : b.v ≠ ⊥ := by intro q; rw [q] at hb1; exact absurd (le_bot_iff.1 hb1) (EReal.coe_ne_bot 1)
  by_cases hbt : b.v = ⊤
  · left
    show _ < powE b.v c.v
    rw [hbt]
    have : powE ⊤ c.v = ⊤ := by
      show (if 0 < c.v then (⊤ : EReal) else 0) = ⊤
      rw [if_pos cpos]
    rw [this]; exact EReal.coe_lt_top _
  obtain ⟨a, ha⟩ : ∃ a : ℝ, b.v = a := ⟨_, (EReal.coe_toReal hbt hbb).symm⟩
  have a1 : 1 < a := by
    have : 1 < b.v := lt_of_le_of_ne hb1 (Ne.symm h1)
    rw [ha] at this; exact_mod_cast this
  have ar : r ≤ a := by rw [ha] at hbr; exact_mod_cast hbr
  by_cases hct : c.v = ⊤
  · left
    show _ < powE b.v c.v
    rw [ha, hct]
    show _ < (if 1 < |a| then (⊤ : EReal) else 0)
    rw [if_pos (by rw [abs_of_pos (by linarith)]; exact a1)]
    exact EReal.coe_lt_top _
  obtain ⟨u, hu⟩ : ∃ u : ℝ, c.v = u := ⟨_, (EReal.coe_toReal hct hcb).symm⟩
  have us : s ≤ u := by rw [hu] at hcs; exact_mod_cast hcs
  have e1 : a ^ s ≤ a ^ u := Real.rpow_le_rpow_of_exponent_le a1.le us
  have e2 : r ^ s ≤ a ^ s := Real.rpow_le_rpow r0 ar s0
  rw [below_coe (s := a ^ u) (by show powE b.v c.v = _; rw [ha, hu]; rfl)]
  rcases (e2.trans e1).lt_or_eq with q | q
  · exact Or.inl q
  · right
    refine ⟨q, ?_⟩
    have hus : s = u := by
      by_contra g
      have := Real.rpow_lt_rpow_of_exponent_lt a1 (lt_of_le_of_ne us g)
      linarith
    have sp : 0 < s := by
      refine lt_of_le_of_ne s0 (Ne.symm ?_)
      rintro rfl
      exact c0 (by rw [hu, ← hus]; rfl)
    have har : r = a := by
      by_contra g
      have := Real.rpow_lt_rpow r0 (lt_of_le_of_ne ar g) sp
      linarith
    have f1 : b.f = 0 := Below.near hb (by rw [ha, har])
    have f2 : c.f = 0 := Below.near hc (by rw [hu, hus])
    show (if b.closed = true then (if c.closed = true then (0 : ℤ) else -1) else b.f) = 0
    rw [if_pos ((closed_iff b).2 f1), if_pos ((closed_iff c).2 f2)]

/-- The upper corner at the smallest exponent, for bases up to 1. -/
theorem upow_low {b c : Bd} {r s : ℝ} (hb1 : b.v ≤ 1) (r0 : 0 ≤ r) (hb : Below b r) (hc : Above c s) (hc0 : 0 ≤ c.v) :
    Below (upow b c) (r ^ s) := by
  have hbr := Below.le hb
  have hcs := Above.le hc
  have s0 : 0 ≤ s := by exact_mod_cast hc0.trans hcs
  have r1 : r ≤ 1 := by exact_mod_cast hbr.trans hb1
  have le1 : r ^ s ≤ 1 := Real.rpow_le_one r0 r1 s0
  have eq1 : 0 < s → r ^ s = 1 → r = 1 := by
    intro sp g
    by_contra q
    have := Real.rpow_lt_one r0 (lt_of_le_of_ne r1 q) sp
    linarith
  unfold upow
  by_cases c0 : c.v = 0
  · rw [if_pos c0]
    rcases le1.lt_or_eq with q | q
    · exact Or.inl (show _ < (1 : EReal) by exact_mod_cast q)
    · refine Or.inr ⟨show _ = (1 : EReal) by exact_mod_cast q, ?_⟩
      show (if c.closed = true then (0 : ℤ) else b.f) = 0
      by_cases hcc : c.closed = true
      · rw [if_pos hcc]
      · rw [if_neg hcc]
        have hs : s ≠ 0 := by
          rintro rfl
          exact hcc ((closed_iff c).2 (Above.near hc (by rw [c0]; rfl)))
        have hr := eq1 (lt_of_le_of_ne s0 (Ne.symm hs)) q
        refine Below.near hb (le_antisymm ?_ hbr)
        rw [hr]; exact_mod_cast hb1
  rw [if_neg c0]
  have cpos : 0 < c.v := lt_of_le_of_ne hc0 (Ne.symm c0)
  have sp : 0 < s := by exact_mod_cast cpos.trans_le hcs
  have hct : c.v ≠ ⊤ := by intro q; rw [q] at hcs; exact absurd (top_le_iff.1 hcs) (EReal.coe_ne_top _)
  have hcb : c.v ≠ ⊥ := by intro q; rw [q] at hc0; simp at hc0
  by_cases b0 : b.v = 0
  · rw [if_neg (by intro q; exact q.1 b0)]
    have hr : r = 0 := le_antisymm (by rw [b0] at hbr; exact_mod_cast hbr) r0
    refine Or.inr ⟨?_, Below.near hb (by rw [b0, hr]; rfl)⟩
    rw [hr, Real.zero_rpow sp.ne', b0]; rfl
  by_cases h1 : b.v = 1
  · rw [if_neg (by intro q; exact q.2 h1)]
    rcases le1.lt_or_eq with q | q
    · exact Or.inl (by rw [h1]; exact_mod_cast q)
    · exact Or.inr ⟨by rw [h1]; exact_mod_cast q, Below.near hb (by rw [h1, eq1 sp q]; rfl)⟩
  rw [if_pos ⟨b0, h1⟩]
  have hbt : b.v ≠ ⊤ := by intro q; rw [q] at hb1; exact absurd (top_le_iff.1 hb1) (EReal.coe_ne_top 1)
  have hbb : b.v ≠ ⊥ := by intro q; rw [q] at hbr; exact absurd (le_bot_iff.1 hbr) (EReal.coe_ne_bot _)
  obtain ⟨a, ha⟩ : ∃ a : ℝ, b.v = a := ⟨_, (EReal.coe_toReal hbt hbb).symm⟩
  obtain ⟨u, hu⟩ : ∃ u : ℝ, c.v = u := ⟨_, (EReal.coe_toReal hct hcb).symm⟩
  have ar : r ≤ a := by rw [ha] at hbr; exact_mod_cast hbr
  have a0 : 0 < a := by
    refine lt_of_le_of_ne (r0.trans ar) ?_
    rintro rfl
    exact b0 (by rw [ha]; rfl)
  have a1 : a < 1 := by
    have : b.v < 1 := lt_of_le_of_ne hb1 h1
    rw [ha] at this; exact_mod_cast this
  have us : u ≤ s := by rw [hu] at hcs; exact_mod_cast hcs
  have e1 : a ^ s ≤ a ^ u := Real.rpow_le_rpow_of_exponent_ge a0 a1.le us
  have e2 : r ^ s ≤ a ^ s := Real.rpow_le_rpow r0 ar s0
  rw [below_coe (s := a ^ u) (by show powE b.v c.v = _; rw [ha, hu]; rfl)]
  rcases (e2.trans e1).lt_or_eq with q | q
  · exact Or.inl q
  · right
    refine ⟨q, ?_⟩
    have hus : u = s := by
      by_contra g
      have := Real.rpow_lt_rpow_of_exponent_gt a0 a1 (lt_of_le_of_ne us g)
      linarith
    have har : r = a := by
      by_contra g
      have := Real.rpow_lt_rpow r0 (lt_of_le_of_ne ar g) sp
      linarith
    have f1 : b.f = 0 := Below.near hb (by rw [ha, har])
    have f2 : c.f = 0 := Above.near hc (by rw [hu, hus])
    show (if b.closed = true then (if c.closed = true then (0 : ℤ) else -1) else b.f) = 0
    rw [if_pos ((closed_iff b).2 f1), if_pos ((closed_iff c).2 f2)]

theorem lpow_ok {b c : Bd} (hb : b.f = 0 ∨ b.f = 1) : LoOk (lpow b c) := by
  unfold lpow LoOk
  split_ifs <;> rcases hb with h | h <;> simp_all
theorem upow_ok {b c : Bd} (hb : b.f = 0 ∨ b.f = -1) : UpOk (upow b c) := by
  unfold upow UpOk
  split_ifs <;> rcases hb with h | h <;> simp_all

/-- **C130**: for an exponent that is not one number the power of intervals contains the powers of their members. -/
theorem C130_pow_interval_mem (x y : Iv) (hx : Proper x) (hy : Proper y) (hn : ¬ ∃ t, ∀ u, Mem y u ↔ u = t) (r s : ℝ) (h1 : Mem x r) (h2 : Mem y s) :
    Mem (pow x y) (r ^ s) := by
  unfold pow
  by_cases g1 : hasV x 0 ∧ ¬ gtV y 0
  · rw [if_pos g1]; exact full_mem _
  rw [if_neg g1]
  have hp : ¬ y.onePoint := fun q => by
    obtain ⟨t, -, ht⟩ := onePoint_mem hy q
    exact hn ⟨t, ht⟩
  rw [if_neg hp]
  by_cases g2 : geV x 0
  swap
  · rw [if_pos g2]; exact full_mem _
  rw [if_neg (not_not.2 g2)]
  by_cases g3 : geV y 0
  swap
  · rw [if_pos g3]; exact full_mem _
  rw [if_neg (not_not.2 g3)]
  have x0 : 0 ≤ x.lo.v := not_lt.1 g2
  have y0 : 0 ≤ y.lo.v := not_lt.1 g3
  have r0 : 0 ≤ r := by exact_mod_cast x0.trans (Above.le h1.1)
  have s0 : 0 ≤ s := by exact_mod_cast y0.trans (Above.le h2.1)
  have fin : ∀ z : Iv, LoOk z.lo → UpOk z.up → Above z.lo (r ^ s) → Below z.up (r ^ s) →
      Mem (if x.int = false ∨ y.int = false ∨ ¬ geV y 0 then z.setMaybeReal else z.setInteger) (r ^ s) := by
    intro z hl hu A B
    by_cases q : x.int = false ∨ y.int = false ∨ ¬ geV y 0
    · rw [if_pos q, C54_setMaybeReal_mem]; exact ⟨A, B⟩
    · rw [if_neg q, C54_setInteger_mem _ hl hu]
      push Not at q
      obtain ⟨a, ha⟩ := h1.2.2 (by simpa using q.1)
      obtain ⟨b, hb⟩ := h2.2.2 (by simpa using q.2.1)
      refine ⟨A, B, a ^ b.toNat, ?_⟩
      have b0 : 0 ≤ b := by rw [hb] at s0; exact_mod_cast s0
      have : (b : ℝ) = ((b.toNat : ℕ) : ℝ) := by exact_mod_cast (Int.toNat_of_nonneg b0).symm
      rw [ha, hb, this, Real.rpow_natCast]
      push_cast; rfl
  by_cases c1 : gtV x 1
  · simp only [if_pos c1]
    have b1 : 1 ≤ x.lo.v := by rcases c1 with q | q; exacts [le_of_lt q, q.1.ge]
    refine fin _ (lpow_ok hx.lf) (upow_ok hx.uf) (lpow_low b1 h1.1 h2.1 y0 hx.lf) (upow_high ?_ r0 h1.2.1 h2.2.1 s0 ?_)
    · exact (b1.trans (Above.le (b := x.lo) h1.1)).trans (Below.le (b := x.up) h1.2.1)
    · intro q
      have : (1 : ℝ) < r := (C54_value_comparisons x 1).2.1 (by simpa using c1) r h1
      have h3 := Below.le (b := x.up) h1.2.1
      rw [q] at h3
      have : r ≤ 1 := by exact_mod_cast h3
      linarith
  rw [if_neg c1]
  by_cases c2 : ltV x 1
  · simp only [if_pos c2]
    have b1 : x.up.v ≤ 1 := by rcases c2 with q | q; exacts [le_of_lt q, q.1.le]
    have b2 : x.lo.v ≤ 1 := ((Above.le (b := x.lo) h1.1).trans (Below.le (b := x.up) h1.2.1)).trans b1
    refine fin _ (lpow_ok hx.lf) (upow_ok hx.uf) (lpow_high x0 b2 h1.1 h2.2.1 s0 hx.lf ?_) (upow_low b1 r0 h1.2.1 h2.1 y0)
    intro q
    rcases hx.lf with f | f
    · exact f
    · exact absurd (Or.inr ⟨q, by rw [f]; norm_num⟩) c1
  rw [if_neg c2]
  have b2 : x.lo.v ≤ 1 := not_lt.1 fun q => c1 (Or.inl q)
  have b1 : 1 ≤ x.up.v := not_lt.1 fun q => c2 (Or.inl q)
  refine fin _ (lpow_ok hx.lf) (upow_ok hx.uf) (lpow_high x0 b2 h1.1 h2.2.1 s0 hx.lf ?_) (upow_high b1 r0 h1.2.1 h2.2.1 s0 ?_)
  · intro q
    rcases hx.lf with f | f
    · exact f
    · exact absurd (Or.inr ⟨q, by rw [f]; norm_num⟩) c1
  · intro q
    rcases hx.uf with f | f
    · exact f
    · exact absurd (Or.inr ⟨q, by rw [f]; norm_num⟩) c2

/-! ## Exponents that are one number -/

theorem lpow_app {b : Bd} {t : ℝ} (ht : 0 < t) (hb : b.f = 0 ∨ b.f = 1) : lpow b ⟨t, 0⟩ = b.app (fun v => powE v t) := by
  have t0 : ((t : ℝ) : EReal) ≠ 0 := by exact_mod_cast ht.ne'
  unfold lpow Bd.app
  by_cases b0 : b.v = 0
  · rw [if_pos b0]
    refine Bd.ext ?_ rfl
    show b.v = powE b.v t
    rw [b0]
    show (0 : EReal) = (((0 : ℝ) ^ t : ℝ) : EReal)
    rw [Real.zero_rpow ht.ne']; rfl
  rw [if_neg b0, if_neg t0]
  by_cases b1 : b.v = 1
  · rw [if_neg (not_not.2 b1)]
    refine Bd.ext ?_ rfl
    show b.v = powE b.v t
    rw [b1]
    show (1 : EReal) = (((1 : ℝ) ^ t : ℝ) : EReal)
    rw [Real.one_rpow]; rfl
  · rw [if_pos b1]
    refine Bd.ext rfl ?_
    show (if b.closed = true then (if (⟨(t : EReal), 0⟩ : Bd).closed = true then (0 : ℤ) else 1) else b.f) = b.f
    rcases hb with f | f <;> simp [Bd.closed, f]

theorem upow_app {b : Bd} {t : ℝ} (ht : 0 < t) (hb : b.f = 0 ∨ b.f = -1) : upow b ⟨t, 0⟩ = b.app (fun v => powE v t) := by
  have t0 : ((t : ℝ) : EReal) ≠ 0 := by exact_mod_cast ht.ne'
  unfold upow Bd.app
  rw [if_neg t0]
  by_cases b0 : b.v = 0
  · rw [if_neg (fun q => q.1 b0)]
    refine Bd.ext ?_ rfl
    show b.v = powE b.v t
    rw [b0]
    show (0 : EReal) = (((0 : ℝ) ^ t : ℝ) : EReal)
    rw [Real.zero_rpow ht.ne']; rfl
  by_cases b1 : b.v = 1
  · rw [if_neg (fun q => q.2 b1)]
    refine Bd.ext ?_ rfl
    show b.v = powE b.v t
    rw [b1]
    show (1 : EReal) = (((1 : ℝ) ^ t : ℝ) : EReal)
    rw [Real.one_rpow]; rfl
  · rw [if_pos ⟨b0, b1⟩]
    refine Bd.ext rfl ?_
    show (if b.closed = true then (if (⟨(t : EReal), 0⟩ : Bd).closed = true then (0 : ℤ) else -1) else b.f) = b.f
    rcases hb with f | f <;> simp [Bd.closed, f]

/-- The boundaries of `powPoint` for a positive exponent on bases that are not negative. -/
theorem pow_bounds_nonneg {l u : Bd} {t r : ℝ} (ht : 0 < t) (hl : l.f = 0 ∨ l.f = 1) (hu : u.f = 0 ∨ u.f = -1) (l0 : 0 ≤ l.v)
    (A : Above l r) (B : Below u r) : Above (lpow l ⟨t, 0⟩) (r ^ t) ∧ Below (upow u ⟨t, 0⟩) (r ^ t) := by
  have r0 : 0 ≤ r := by exact_mod_cast l0.trans (Above.le A)
  rw [lpow_app ht hl, upow_app ht hu]
  refine ⟨app_above (g := fun a => a ^ t) (fun a ha _ => ⟨rfl, fun q => Real.rpow_lt_rpow ?_ q ht⟩) (fun q => by rw [q] at l0; simp at l0) A,
    app_below (g := fun a => a ^ t) (fun a ha _ => ⟨rfl, fun q => Real.rpow_lt_rpow r0 q ht⟩) (fun q => ?_) B⟩
  · rw [ha] at l0; exact_mod_cast l0
  · have : powE ⊤ (t : EReal) = ⊤ := by
      show (if 0 < (t : EReal) then (⊤ : EReal) else 0) = ⊤
      rw [if_pos (by exact_mod_cast ht)]
    rw [this]; exact EReal.coe_lt_top _

theorem pow_bounds_odd {l u : Bd} {n : ℕ} {r : ℝ} (hn : Odd n) (hl : l.f = 0 ∨ l.f = 1) (hu : u.f = 0 ∨ u.f = -1)
    (A : Above l r) (B : Below u r) : Above (lpow l ⟨((n : ℝ) : EReal), 0⟩) (r ^ n) ∧ Below (upow u ⟨((n : ℝ) : EReal), 0⟩) (r ^ n) := by
  have np : 0 < (n : ℝ) := by exact_mod_cast hn.pos
  rw [lpow_app np hl, upow_app np hu]
  refine ⟨app_above (g := fun a => a ^ n) (fun a ha _ => ⟨?_, fun q => hn.strictMono_pow q⟩) (fun _ => ?_) A,
    app_below (g := fun a => a ^ n) (fun a ha _ => ⟨?_, fun q => hn.strictMono_pow q⟩) (fun _ => ?_) B⟩
  · show (((a ^ (n : ℝ) : ℝ)) : EReal) = _
    rw [Real.rpow_natCast]
  · have : powE ⊥ ((n : ℝ) : EReal) = ⊥ := by
      show (if 0 < ((n : ℝ) : EReal) then (⊥ : EReal) else 0) = ⊥
      rw [if_pos (by exact_mod_cast np)]
    rw [this]; exact EReal.bot_lt_coe _
  · show (((a ^ (n : ℝ) : ℝ)) : EReal) = _
    rw [Real.rpow_natCast]
  · have : powE ⊤ ((n : ℝ) : EReal) = ⊤ := by
      show (if 0 < ((n : ℝ) : EReal) then (⊤ : EReal) else 0) = ⊤
      rw [if_pos (by exact_mod_cast np)]
    rw [this]; exact EReal.coe_lt_top _

theorem point_of {y : Iv} (hy : Proper y) {t : ℝ} (h : ∀ u, Mem y u ↔ u = t) : y.onePoint ∧ y.lo = ⟨t, 0⟩ := by
  have a1 : (t : EReal) ≤ y.lo.v := lo_ge_of hy fun s hs => ((h s).1 hs).ge
  have a2 : y.up.v ≤ (t : EReal) := up_le_of hy fun s hs => ((h s).1 hs).le
  have m := (h t).2 rfl
  have b1 := Above.le (b := y.lo) m.1
  have b2 := Below.le (b := y.up) m.2.1
  have e1 : y.lo.v = t := le_antisymm b1 a1
  have e2 : y.up.v = t := le_antisymm a2 b2
  have f1 : y.lo.f = 0 := Above.near (b := y.lo) m.1 e1
  have f2 : y.up.f = 0 := Below.near (b := y.up) m.2.1 e2
  exact ⟨Bd.ext (e1.trans e2.symm) (f1.trans f2.symm), Bd.ext e1 f1⟩

theorem abs_proper_bds {x : Iv} (hx : Proper x) : 0 ≤ (abs x).lo.v ∧ ((abs x).lo.f = 0 ∨ (abs x).lo.f = 1) ∧ ((abs x).up.f = 0 ∨ (abs x).up.f = -1) ∧
    (abs x).int = x.int := by
  unfold abs
  by_cases h1 : ltV x 0
  · rw [if_pos h1]
    refine ⟨?_, lset_f x.up, uset_f x.lo, rfl⟩
    show 0 ≤ -x.up.v
    exact EReal.neg_nonneg.2 (by rcases h1 with q | q; exacts [le_of_lt q, q.1.le])
  rw [if_neg h1]
  by_cases h2 : gtV x 0
  · rw [if_neg (not_not.2 h2)]
    exact ⟨by rcases h2 with q | q; exacts [le_of_lt q, q.1.ge], hx.lf, hx.uf, rfl⟩
  · rw [if_pos h2]
    refine ⟨le_rfl, Or.inl rfl, ?_, rfl⟩
    dsimp only
    split_ifs
    · exact uset_f x.lo
    · exact hx.uf

/-- **C130**: for an exponent that is one natural number. -/
theorem C130_pow_nat_mem (x y : Iv) (hx : Proper x) (hy : Proper y) (n : ℕ) (hn : ∀ u, Mem y u ↔ u = n) (r : ℝ) (h1 : Mem x r) :
    Mem (pow x y) (r ^ n) := by
  obtain ⟨hp, hl⟩ := point_of hy hn
  unfold pow
  by_cases g1 : hasV x 0 ∧ ¬ gtV y 0
  · rw [if_pos g1]; exact full_mem _
  rw [if_neg g1, if_pos hp]
  unfold powPoint
  have hi : isInt y.lo.v := ⟨n, by rw [hl]; simp⟩
  rw [if_pos hi]
  have hint : x.int = true → ∃ z : ℤ, r ^ n = z := by
    intro g
    obtain ⟨z, hz⟩ := h1.2.2 g
    exact ⟨z ^ n, by rw [hz]; push_cast; rfl⟩
  have ev : isEven y.lo.v ↔ Even n := by
    rw [hl]
    constructor
    · rintro ⟨z, hz⟩
      have h2 : (n : ℝ) = 2 * z := EReal.coe_injective hz
      have h3 : (n : ℤ) = 2 * z := by exact_mod_cast h2
      have : Even (n : ℤ) := ⟨z, by omega⟩
      exact_mod_cast this
    · rintro ⟨k, hk⟩
      exact ⟨k, congrArg (fun a : ℝ => (a : EReal)) (by rw [hk]; push_cast; ring)⟩
  rcases Nat.even_or_odd n with he | ho
  · simp only [if_pos (ev.2 he)]
    obtain ⟨a0, alf, auf, ai⟩ := abs_proper_bds hx
    have ma := C54_abs_mem x hx r h1
    have er : r ^ n = |r| ^ n := (he.pow_abs r).symm
    rcases Nat.eq_zero_or_pos n with rfl | np
    · rw [hl]
      have t0 : (((0 : ℕ) : ℝ) : EReal) = 0 := by simp
      refine ⟨?_, ?_, fun _ => ⟨1, by simp⟩⟩
      · show Above (lpow (abs x).lo ⟨((0 : ℕ) : ℝ), 0⟩) _
        unfold lpow
        by_cases b0 : (abs x).lo.v = 0
        · rw [if_pos b0, pow_zero]
          exact above_of_lt b0.le one_pos
        · rw [if_neg b0, if_pos t0, pow_zero]
          exact Or.inr ⟨rfl, by simp [Bd.closed]⟩
      · show Below (upow (abs x).up ⟨((0 : ℕ) : ℝ), 0⟩) _
        unfold upow
        rw [if_pos t0, pow_zero]
        exact Or.inr ⟨rfl, by simp [Bd.closed]⟩
    · have := pow_bounds_nonneg (t := (n : ℝ)) (by exact_mod_cast np) alf auf a0 ma.1 ma.2.1
      rw [Real.rpow_natCast] at this
      rw [hl, er]
      refine ⟨this.1, this.2, fun g => ?_⟩
      rw [← er]
      exact hint (by rw [← ai]; exact g)
  · have : ¬ isEven y.lo.v := fun g => (Nat.not_even_iff_odd.2 ho) (ev.1 g)
    simp only [if_neg this]
    have := pow_bounds_odd ho hx.lf hx.uf h1.1 h1.2.1
    rw [hl]
    exact ⟨this.1, this.2, hint⟩

/-- **C130**: for reals and an exponent that is one positive number; the powers of the members that are not negative. -/
theorem C130_pow_pos_mem (x y : Iv) (hx : Proper x) (hy : Proper y) (hr : x.int = false) (t : ℝ) (ht : 0 < t) (hn : ∀ u, Mem y u ↔ u = t) (r : ℝ)
    (r0 : 0 ≤ r) (h1 : Mem x r) : Mem (pow x y) (r ^ t) := by
  obtain ⟨hp, hl⟩ := point_of hy hn
  by_cases hi : isInt y.lo.v
  · obtain ⟨z, hz⟩ := hi
    rw [hl] at hz
    have hz : t = z := EReal.coe_injective hz
    have z0 : 0 ≤ z := by rw [hz] at ht; exact_mod_cast ht.le
    have e : t = ((z.toNat : ℕ) : ℝ) := by rw [hz]; exact_mod_cast (Int.toNat_of_nonneg z0).symm
    rw [e, Real.rpow_natCast]
    exact C130_pow_nat_mem x y hx hy _ (by rw [← e]; exact hn) r h1
  unfold pow
  by_cases g1 : hasV x 0 ∧ ¬ gtV y 0
  · rw [if_pos g1]; exact full_mem _
  rw [if_neg g1, if_pos hp]
  unfold powPoint
  rw [if_neg hi]
  have hy0 : ¬ y.lo.v < 0 := by rw [hl]; exact not_lt.2 (show (0 : EReal) ≤ (t : EReal) by exact_mod_cast ht.le)
  set l : Bd := if x.lo.v < 0 then ⟨0, 0⟩ else x.lo with hlb
  have lA : Above l r ∧ 0 ≤ l.v ∧ (l.f = 0 ∨ l.f = 1) := by
    rw [hlb]
    by_cases q : x.lo.v < 0
    · rw [if_pos q]
      refine ⟨?_, le_rfl, Or.inl rfl⟩
      rcases r0.lt_or_eq with g | g
      · exact above_of_lt le_rfl g
      · exact Or.inr ⟨by rw [← g]; rfl, rfl⟩
    · rw [if_neg q]; exact ⟨h1.1, not_lt.1 q, hx.lf⟩
  have hne : ¬ (x.lo.v < 0 ∧ l.gt x.up) := by
    rintro ⟨-, g⟩
    exact not_between (by rcases lA.2.2 with f | f <;> simp [LoOk, f]) hx.bdOk.upOk g r ⟨lA.1, h1.2.1⟩
  simp only [if_neg hne, if_neg hy0]
  have := pow_bounds_nonneg ht lA.2.2 hx.uf lA.2.1 lA.1 h1.2.1
  rw [hl]
  exact ⟨this.1, this.2, by simp [hr]⟩

theorem lpow_neg {b : Bd} {t : ℝ} (ht : t ≠ 0) (hb0 : b.v ≠ 0) (hb : b.f = 0 ∨ b.f = 1) : lpow b ⟨t, 0⟩ = ⟨powE b.v t, b.f⟩ := by
  have t0 : ((t : ℝ) : EReal) ≠ 0 := by exact_mod_cast ht
  unfold lpow
  rw [if_neg hb0, if_neg t0]
  by_cases b1 : b.v = 1
  · rw [if_neg (not_not.2 b1)]
    refine Bd.ext ?_ rfl
    show b.v = powE b.v t
    rw [b1]
    show (1 : EReal) = (((1 : ℝ) ^ t : ℝ) : EReal)
    rw [Real.one_rpow]; rfl
  · rw [if_pos b1]
    refine Bd.ext rfl ?_
    show (if b.closed = true then (if (⟨(t : EReal), 0⟩ : Bd).closed = true then (0 : ℤ) else 1) else b.f) = b.f
    rcases hb with f | f <;> simp [Bd.closed, f]
theorem upow_neg {b : Bd} {t : ℝ} (ht : t ≠ 0) (hb0 : b.v ≠ 0) (hb : b.f = 0 ∨ b.f = -1) : upow b ⟨t, 0⟩ = ⟨powE b.v t, b.f⟩ := by
  have t0 : ((t : ℝ) : EReal) ≠ 0 := by exact_mod_cast ht
  unfold upow
  rw [if_neg t0]
  by_cases b1 : b.v = 1
  · rw [if_neg (fun q => q.2 b1)]
    refine Bd.ext ?_ rfl
    show b.v = powE b.v t
    rw [b1]
    show (1 : EReal) = (((1 : ℝ) ^ t : ℝ) : EReal)
    rw [Real.one_rpow]; rfl
  · rw [if_pos ⟨hb0, b1⟩]
    refine Bd.ext rfl ?_
    show (if b.closed = true then (if (⟨(t : EReal), 0⟩ : Bd).closed = true then (0 : ℤ) else -1) else b.f) = b.f
    rcases hb with f | f <;> simp [Bd.closed, f]

/-- **C130**: for reals from a positive number on and an exponent that is one negative number but not an integer. -/
theorem C130_pow_neg_mem (x y : Iv) (hx : Proper x) (hy : Proper y) (hr : x.int = false) (m : ℝ) (m0 : 0 < m) (hm : ∀ r, Mem x r → m ≤ r) (t : ℝ)
    (ht : t < 0) (hti : ¬ ∃ z : ℤ, t = z) (hn : ∀ u, Mem y u ↔ u = t) (r : ℝ) (h1 : Mem x r) : Mem (pow x y) (r ^ t) := by
  obtain ⟨hp, hl⟩ := point_of hy hn
  have hi : ¬ isInt y.lo.v := by
    rintro ⟨z, hz⟩
    rw [hl] at hz
    exact hti ⟨z, EReal.coe_injective hz⟩
  have xlo : (0 : EReal) < x.lo.v := lt_of_lt_of_le (by exact_mod_cast m0) (lo_ge_of hx hm)
  have r0 : 0 < r := m0.trans_le (hm r h1)
  have hr1 := Above.le (b := x.lo) h1.1
  have hr2 := Below.le (b := x.up) h1.2.1
  have xup : (0 : EReal) < x.up.v := xlo.trans_le (hr1.trans hr2)
  have nz : ¬ (hasV x 0 ∧ ¬ gtV y 0) := by
    rintro ⟨q, -⟩
    have := (C54_hasV_iff x (Or.inr hx) 0).1 (by simpa using q)
    have := hm 0 this
    linarith
  unfold pow
  rw [if_neg nz, if_pos hp]
  unfold powPoint
  have hlo : ¬ x.lo.v < 0 := not_lt.2 xlo.le
  have hy0 : y.lo.v < 0 := by rw [hl]; show (t : EReal) < 0; exact_mod_cast ht
  rw [if_neg hi]
  simp only [if_neg hlo, if_neg (fun q : x.lo.v < 0 ∧ x.lo.gt x.up => hlo q.1), if_pos hy0]
  rw [hl, lpow_neg ht.ne (show (lset x.up).v ≠ 0 from xup.ne') (lset_f _), upow_neg ht.ne (show (uset x.lo).v ≠ 0 from xlo.ne') (uset_f _)]
  have anti : ∀ a b : ℝ, 0 < a → a < b → b ^ t < a ^ t := fun a b ha hab => Real.rpow_lt_rpow_of_neg ha hab ht
  refine ⟨?_, ?_, by simp [hr]⟩
  · show Above ⟨powE x.up.v t, (lset x.up).f⟩ _
    induction hv : x.up.v using EReal.rec with
    | bot => rw [hv] at hr2; exact absurd (le_bot_iff.1 hr2) (EReal.coe_ne_bot _)
    | top =>
      left
      show (if 0 < (t : EReal) then (⊤ : EReal) else 0) < _
      rw [if_neg (not_lt.2 (by exact_mod_cast ht.le))]
      exact_mod_cast Real.rpow_pos_of_pos r0 t
    | coe a =>
      have ra : r ≤ a := by rw [hv] at hr2; exact_mod_cast hr2
      rw [above_coe (s := a ^ t) rfl]
      rcases ra.lt_or_eq with q | q
      · exact Or.inl (anti r a r0 q)
      · refine Or.inr ⟨by rw [q], near_lset (r := r) (Below.near (b := x.up) h1.2.1) ?_⟩
        show x.up.v = _
        rw [hv, q]
  · show Below ⟨powE x.lo.v t, (uset x.lo).f⟩ _
    induction hv : x.lo.v using EReal.rec with
    | bot => rw [hv] at xlo; simp at xlo
    | top => rw [hv] at hr1; exact absurd (top_le_iff.1 hr1) (EReal.coe_ne_top _)
    | coe a =>
      have ra : a ≤ r := by rw [hv] at hr1; exact_mod_cast hr1
      have a0 : 0 < a := by rw [hv] at xlo; exact_mod_cast xlo
      rw [below_coe (s := a ^ t) rfl]
      rcases ra.lt_or_eq with q | q
      · exact Or.inl (anti a r a0 q)
      · refine Or.inr ⟨by rw [q], near_uset (r := r) (Above.near (b := x.lo) h1.1) ?_⟩
        show x.lo.v = _
        rw [hv, q]

/-! ## Where the power is wrong -/

/-- The interval of one number, in normal form. -/
noncomputable def pt (t : ℝ) : Iv := ⟨⟨t, 0⟩, ⟨t, 0⟩, decide (isInt (t : EReal))⟩

theorem pt_mem (t r : ℝ) : Mem (pt t) r ↔ r = t := by
  rw [mem_def]
  unfold pt
  rw [above_coe (s := t) rfl, below_coe (s := t) rfl]
  constructor
  · rintro ⟨a, b, -⟩
    rcases a with a | a <;> rcases b with b | b
    · linarith
    · exact b.1
    · exact a.1.symm
    · exact b.1
  · rintro rfl
    refine ⟨Or.inr ⟨rfl, rfl⟩, Or.inr ⟨rfl, rfl⟩, fun g => ?_⟩
    obtain ⟨z, hz⟩ := of_decide_eq_true g
    exact ⟨z, EReal.coe_injective hz⟩

theorem pt_proper (t : ℝ) : Proper (pt t) := by
  refine ⟨Or.inl rfl, Or.inl rfl, ?_, ?_, EReal.coe_ne_top _, EReal.coe_ne_bot _, ?_, ?_, ?_, ?_⟩
  · intro g; exact absurd g (EReal.coe_ne_bot _)
  · intro g; exact absurd g (EReal.coe_ne_top _)
  · rw [Bd.le_iff]; exact Or.inr ⟨rfl, le_rfl⟩
  · intro g; exact Or.inr ⟨of_decide_eq_true g, rfl⟩
  · intro g; exact Or.inr ⟨of_decide_eq_true g, rfl⟩
  · rintro g ⟨-, h⟩
    exact (of_decide_eq_false g) h

theorem pow_point_eq {x : Iv} {t : ℝ} (hx : Proper x) (h0 : ¬ Mem x 0) : pow x (pt t) = powPoint x (pt t) := by
  unfold pow
  have : ¬ (hasV x 0 ∧ ¬ gtV (pt t) 0) := by
    rintro ⟨q, -⟩
    exact h0 ((C54_hasV_iff x (Or.inr hx) 0).1 (by simpa using q))
  rw [if_neg this, if_pos (show (pt t).onePoint from rfl)]

/-- **C129** refuted: [2, 3] to the power -1 gives the boundaries 1/2 and 1/3 in this order, so that 2 ^ -1 is not in it. -/
theorem C129_negative_refuted : ∃ (x y : Iv) (r s : ℝ), Proper x ∧ Proper y ∧ Mem x r ∧ Mem y s ∧ 0 < r ∧ ¬ Mem (pow x y) (r ^ s) := by
  have px := cl_proper_real 2 3 (by norm_num)
  refine ⟨cl 2 3 false, pt (-1), 2, -1, px, pt_proper _, ?_, (pt_mem _ _).2 rfl, by norm_num, ?_⟩
  · rw [cl_mem]; norm_num
  rw [pow_point_eq px (by rw [cl_mem]; norm_num)]
  have hi : isInt (pt (-1)).lo.v := ⟨-1, by simp [pt]⟩
  have ho : ¬ isEven (pt (-1)).lo.v := by
    rintro ⟨z, hz⟩
    have h2 : (-1 : ℝ) = 2 * z := EReal.coe_injective hz
    have h3 : (-1 : ℤ) = 2 * z := by exact_mod_cast h2
    omega
  unfold powPoint
  rw [if_pos hi]
  simp only [if_neg ho]
  rintro ⟨-, b, -⟩
  have b' : Below (upow (cl 2 3 false).up (pt (-1)).lo) ((2 : ℝ) ^ (-1 : ℝ)) := b
  have e : upow (cl 2 3 false).up (pt (-1)).lo = ⟨(((3 : ℝ) ^ (-1 : ℝ) : ℝ) : EReal), 0⟩ :=
    upow_neg (b := ⟨((3 : ℝ) : EReal), 0⟩) (by norm_num) (show ((3 : ℝ) : EReal) ≠ 0 by exact_mod_cast (by norm_num : (3 : ℝ) ≠ 0)) (Or.inl rfl)
  rw [e] at b'
  have := EReal.coe_le_coe_iff.1 (Below.le b')
  rw [Real.rpow_neg_one, Real.rpow_neg_one] at this
  norm_num at this

/-- **C129** refuted: the square root of the integers 2 and 3 keeps the type INTEGER, so that √2 is not in it. -/
theorem C129_integer_refuted : ∃ (x y : Iv) (r s : ℝ), Proper x ∧ Proper y ∧ Mem x r ∧ Mem y s ∧ 0 < r ∧ 0 < s ∧ ¬ Mem (pow x y) (r ^ s) := by
  have px := cl_proper_int 2 3 (by norm_num)
  refine ⟨cl (2 : ℤ) (3 : ℤ) true, pt (1 / 2), 2, 1 / 2, px, pt_proper _, ?_, (pt_mem _ _).2 rfl, by norm_num, by norm_num, ?_⟩
  · rw [cl_mem]; exact ⟨by norm_num, by norm_num, fun _ => ⟨2, by norm_num⟩⟩
  rw [pow_point_eq px (by rw [cl_mem]; norm_num)]
  have hi : ¬ isInt (pt (1 / 2)).lo.v := by
    rintro ⟨z, hz⟩
    have h2 : (1 / 2 : ℝ) = z := EReal.coe_injective hz
    have h3 : (1 : ℝ) = 2 * z := by linarith
    have h4 : (1 : ℤ) = 2 * z := by exact_mod_cast h3
    omega
  have hlo : ¬ (cl (2 : ℤ) (3 : ℤ) true).lo.v < 0 := not_lt.2 (show (0 : EReal) ≤ (((2 : ℤ) : ℝ) : EReal) by norm_num)
  have hy0 : ¬ (pt (1 / 2)).lo.v < 0 := not_lt.2 (show (0 : EReal) ≤ ((1 / 2 : ℝ) : EReal) by exact_mod_cast (by norm_num : (0 : ℝ) ≤ 1 / 2))
  unfold powPoint
  rw [if_neg hi]
  simp only [if_neg hlo, if_neg (fun q : (cl (2 : ℤ) (3 : ℤ) true).lo.v < 0 ∧ _ => hlo q.1), if_neg hy0]
  rintro ⟨-, -, h⟩
  obtain ⟨z, hz⟩ := h rfl
  have e : ((2 : ℝ) ^ (1 / 2 : ℝ)) ^ 2 = 2 := by
    rw [← Real.rpow_natCast, ← Real.rpow_mul (by norm_num)]
    norm_num
  rw [hz] at e
  have e' : z ^ 2 = 2 := by exact_mod_cast e
  have : z ≤ 1 ∨ 2 ≤ z := by omega
  have : -1 ≤ z ∨ z ≤ -2 := by omega
  rcases this with q | q
  · rcases ‹z ≤ 1 ∨ 2 ≤ z› with q' | q'
    · interval_cases z <;> omega
    · nlinarith
  · nlinarith

/-- The reals from 0 to 4 without 0. -/
noncomputable def zeroOpen : Iv := ⟨⟨((0 : ℝ) : EReal), 1⟩, ⟨((4 : ℝ) : EReal), 0⟩, false⟩

theorem zeroOpen_mem (r : ℝ) : Mem zeroOpen r ↔ 0 < r ∧ r ≤ 4 := by
  rw [mem_def]
  unfold zeroOpen
  rw [above_coe (s := 0) rfl, below_coe (s := 4) rfl]
  simp [le_iff_lt_or_eq]

theorem zeroOpen_proper : Proper zeroOpen := by
  refine ⟨Or.inr rfl, Or.inl rfl, ?_, ?_, EReal.coe_ne_top _, EReal.coe_ne_bot _, ?_, ?_, ?_, ?_⟩
  · intro g; exact absurd g (EReal.coe_ne_bot _)
  · intro g; exact absurd g (EReal.coe_ne_top _)
  · rw [Bd.le_iff]; left; exact EReal.coe_lt_coe_iff.2 (by norm_num)
  · intro g; cases g
  · intro g; cases g
  · rintro - ⟨g, -⟩
    have := EReal.coe_injective (congrArg Bd.v g)
    norm_num at this

/-- **C129** refuted: (0, 4] to the power -1/2 has the upper boundary 0. -/
theorem C129_open_zero_refuted : ∃ (x y : Iv) (r s : ℝ), Proper x ∧ Proper y ∧ x.int = false ∧ Mem x r ∧ Mem y s ∧ (∀ u, Mem x u → 0 < u) ∧
    ¬ (∃ z : ℤ, s = z) ∧ ¬ Mem (pow x y) (r ^ s) := by
  refine ⟨zeroOpen, pt (-1 / 2), 1, -1 / 2, zeroOpen_proper, pt_proper _, rfl, (zeroOpen_mem _).2 (by norm_num), (pt_mem _ _).2 rfl,
    fun u hu => ((zeroOpen_mem u).1 hu).1, ?_, ?_⟩
  · rintro ⟨z, hz⟩
    have h3 : (-1 : ℝ) = 2 * z := by linarith
    have h4 : (-1 : ℤ) = 2 * z := by exact_mod_cast h3
    omega
  rw [pow_point_eq zeroOpen_proper (by rw [zeroOpen_mem]; norm_num)]
  have hi : ¬ isInt (pt (-1 / 2)).lo.v := by
    rintro ⟨z, hz⟩
    have h2 : (-1 / 2 : ℝ) = z := EReal.coe_injective hz
    have h3 : (-1 : ℝ) = 2 * z := by linarith
    have h4 : (-1 : ℤ) = 2 * z := by exact_mod_cast h3
    omega
  have hlo : ¬ zeroOpen.lo.v < 0 := not_lt.2 (show (0 : EReal) ≤ ((0 : ℝ) : EReal) from le_rfl)
  have hy0 : (pt (-1 / 2)).lo.v < 0 := show ((-1 / 2 : ℝ) : EReal) < 0 by exact_mod_cast (by norm_num : (-1 / 2 : ℝ) < 0)
  unfold powPoint
  rw [if_neg hi]
  simp only [if_neg hlo, if_neg (fun q : zeroOpen.lo.v < 0 ∧ _ => hlo q.1), if_pos hy0]
  rintro ⟨-, b, -⟩
  have b' : Below (upow (uset zeroOpen.lo) (pt (-1 / 2)).lo) ((1 : ℝ) ^ (-1 / 2 : ℝ)) := b
  have e : upow (uset zeroOpen.lo) (pt (-1 / 2)).lo = uset zeroOpen.lo := by
    have t0 : (pt (-1 / 2)).lo.v ≠ 0 := hy0.ne
    have b0 : (uset zeroOpen.lo).v = 0 := rfl
    unfold upow
    rw [if_neg t0, if_neg (fun q => q.1 b0)]
  rw [e, Real.one_rpow] at b'
  have : ((1 : ℝ) : EReal) ≤ ((0 : ℝ) : EReal) := Below.le b'
  have := EReal.coe_le_coe_iff.1 this
  norm_num at this

/-- **C130**: the hypotheses are met: [1, 4] to the powers of [1, 2], to the power 3, and to the power -1/2. -/
theorem C130_nonvacuous : Proper (cl 1 4 false) ∧ Mem (cl 1 4 false) 4 ∧ Proper (cl 1 2 false) ∧ (¬ ∃ t, ∀ u, Mem (cl 1 2 false) u ↔ u = t) ∧
    Mem (pow (cl 1 4 false) (cl 1 2 false)) ((4 : ℝ) ^ (3 / 2 : ℝ)) ∧ Mem (pow (cl 1 4 false) (pt (3 : ℕ))) 64 ∧
    Mem (pow (cl 1 4 false) (pt (1 / 2))) ((4 : ℝ) ^ (1 / 2 : ℝ)) ∧ Mem (pow (cl 1 4 false) (pt (-1 / 2))) ((4 : ℝ) ^ (-1 / 2 : ℝ)) := by
  have p1 := cl_proper_real 1 4 (by norm_num)
  have p2 := cl_proper_real 1 2 (by norm_num)
  have m1 : Mem (cl 1 4 false) 4 := by rw [cl_mem]; norm_num
  have ne : ¬ ∃ t, ∀ u, Mem (cl 1 2 false) u ↔ u = t := by
    rintro ⟨t, h⟩
    have h1 := (h 1).1 (by rw [cl_mem]; norm_num)
    have h2 := (h 2).1 (by rw [cl_mem]; norm_num)
    linarith
  refine ⟨p1, m1, p2, ne, C130_pow_interval_mem _ _ p1 p2 ne _ _ m1 (by rw [cl_mem]; norm_num), ?_, ?_, ?_⟩
  · have := C130_pow_nat_mem _ (pt (3 : ℕ)) p1 (pt_proper _) 3 (pt_mem _) 4 m1
    norm_num at this
    exact_mod_cast this
  · exact C130_pow_pos_mem _ _ p1 (pt_proper _) rfl (1 / 2) (by norm_num) (pt_mem _) 4 (by norm_num) m1
  · refine C130_pow_neg_mem _ _ p1 (pt_proper _) rfl 1 (by norm_num) (fun r h => ((cl_mem _ _ _ _).1 h).1) (-1 / 2) (by norm_num) ?_ (pt_mem _) 4 m1
    rintro ⟨z, hz⟩
    have h3 : (-1 : ℝ) = 2 * z := by linarith
    have h4 : (-1 : ℤ) = 2 * z := by exact_mod_cast h3
    omega

end Purrs.Interval
