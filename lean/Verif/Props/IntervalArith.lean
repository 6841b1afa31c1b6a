import Verif.Props.IntervalOps
import Mathlib.Tactic.Positivity

/-!
# C54, continued: arithmetic on intervals contains the pointwise results
-/

namespace Purrs.Interval

open Classical

/-! ## Rounding -/

theorem lfloor_above {b : Bd} {r : ℝ} (h : Above b r) : Above (lfloor b) (⌊r⌋ : ℝ) := by
  unfold lfloor
  split_ifs with hb
  · left; rw [hb]; exact EReal.bot_lt_coe _
  · have hle : b.v ≤ (r : EReal) := by rcases h with g | g; exacts [g.le, g.1.le]
    induction hv : b.v using EReal.rec with
    | bot => exact absurd hv hb
    | top => rw [hv] at hle; exact absurd (top_le_iff.1 hle) (EReal.coe_ne_top _)
    | coe s =>
      rw [hv] at hle
      have hs : s ≤ r := by exact_mod_cast hle
      rw [above_coe (s := (⌊s⌋ : ℝ)) rfl]
      have : (⌊s⌋ : ℝ) ≤ ⌊r⌋ := by exact_mod_cast Int.floor_le_floor hs
      rcases lt_or_eq_of_le this with g | g
      · exact Or.inl g
      · exact Or.inr ⟨g, rfl⟩

theorem uceil_below {b : Bd} {r : ℝ} (h : Below b r) : Below (uceil b) (⌈r⌉ : ℝ) := by
  unfold uceil
  split_ifs with hb
  · left; rw [hb]; exact EReal.coe_lt_top _
  · have hle : (r : EReal) ≤ b.v := by rcases h with g | g; exacts [g.le, g.1.le]
    induction hv : b.v using EReal.rec with
    | top => exact absurd hv hb
    | bot => rw [hv] at hle; exact absurd (le_bot_iff.1 hle) (EReal.coe_ne_bot _)
    | coe s =>
      rw [hv] at hle
      have hs : r ≤ s := by exact_mod_cast hle
      rw [below_coe (s := (⌈s⌉ : ℝ)) rfl]
      have : (⌈r⌉ : ℝ) ≤ ⌈s⌉ := by exact_mod_cast Int.ceil_le_ceil hs
      rcases lt_or_eq_of_le this with g | g
      · exact Or.inl g
      · exact Or.inr ⟨g, rfl⟩

theorem above_mono {b : Bd} {r s : ℝ} (h : Above b r) (hs : r ≤ s) : Above b s := by
  rcases lt_or_eq_of_le hs with g | rfl
  · left
    have : b.v ≤ (r : EReal) := by rcases h with q | q; exacts [q.le, q.1.le]
    exact lt_of_le_of_lt this (by exact_mod_cast g)
  · exact h

theorem below_mono {b : Bd} {r s : ℝ} (h : Below b r) (hs : s ≤ r) : Below b s := by
  rcases lt_or_eq_of_le hs with g | rfl
  · left
    have : (r : EReal) ≤ b.v := by rcases h with q | q; exacts [q.le, q.1.le]
    exact lt_of_lt_of_le (by exact_mod_cast g) this
  · exact h

/-- **C54**: rounding an interval down contains the floor of every member. -/
theorem C54_floor_mem (x : Iv) (r : ℝ) (h : Mem x r) : Mem (floorA x) ⌊r⌋ :=
  ⟨lfloor_above h.1, (below_ufloor _ _).2 (below_mono h.2.1 (Int.floor_le r)), fun _ => ⟨⌊r⌋, rfl⟩⟩

/-- **C54**: rounding an interval up contains the ceiling of every member. -/
theorem C54_ceil_mem (x : Iv) (r : ℝ) (h : Mem x r) : Mem (ceilA x) ⌈r⌉ :=
  ⟨(above_lceil _ _).2 (above_mono h.1 (Int.le_ceil r)), uceil_below h.2.1, fun _ => ⟨⌈r⌉, rfl⟩⟩

/-- Rounding toward zero. -/
noncomputable def trunc (r : ℝ) : ℤ := if 0 ≤ r then ⌊r⌋ else ⌈r⌉

/-- **C54**: rounding toward zero. -/
theorem C54_trunc_mem (x : Iv) (r : ℝ) (h : Mem x r) : Mem (intA x) (trunc r) := by
  obtain ⟨h1, h2, -⟩ := h
  have hl : x.lo.v ≤ (r : EReal) := by rcases h1 with q | q; exacts [q.le, q.1.le]
  have hu : (r : EReal) ≤ x.up.v := by rcases h2 with q | q; exacts [q.le, q.1.le]
  refine ⟨?_, ?_, fun _ => ⟨_, rfl⟩⟩
  · show Above (lint x.lo) _
    unfold lint lGeV
    by_cases g : x.lo.v < 0
    swap
    · rw [if_pos g]
      rw [not_lt] at g
      have h0 : (0 : ℝ) ≤ r := by exact_mod_cast g.trans hl
      unfold trunc; rw [if_pos h0]
      exact lfloor_above h1
    · rw [if_neg (not_not.2 g)]
      rw [above_lceil]
      unfold trunc
      split_ifs with h0
      · -- 0 ≤ ⌊r⌋ and lower is negative
        left
        refine lt_of_lt_of_le g ?_
        have : (0 : ℝ) ≤ (⌊r⌋ : ℝ) := by exact_mod_cast Int.floor_nonneg.2 h0
        exact_mod_cast this
      · exact above_mono h1 (Int.le_ceil r)
  · show Below (uint x.up) _
    unfold uint
    split_ifs with g
    · rw [below_ufloor]
      unfold trunc
      split_ifs with h0
      · exact below_mono h2 (Int.floor_le r)
      · left
        refine lt_of_le_of_lt ?_ g
        have : (⌈r⌉ : ℝ) ≤ 0 := by
          have : ⌈r⌉ ≤ 0 := by rw [Int.ceil_le]; push_cast; linarith
          exact_mod_cast this
        exact_mod_cast this
    · rw [gt_iff_lt, not_lt] at g
      have hr : r ≤ 0 := by exact_mod_cast hu.trans g
      have : trunc r = ⌈r⌉ := by
        unfold trunc
        split_ifs with h0
        · have : r = 0 := le_antisymm hr h0
          simp [this]
        · rfl
      rw [this]
      exact uceil_below h2

/-! ## Negation and absolute value -/

theorem lset_above (u : Bd) (r : ℝ) : Above ((lset u).neg) (-r) ↔ Below u r := by
  unfold Above Below lset lbd Bd.neg
  simp only [EReal.coe_neg, EReal.neg_lt_neg_iff, neg_inj]
  constructor
  · rintro (h | ⟨h, h'⟩)
    · exact Or.inl h
    · refine Or.inr ⟨h.symm, ?_⟩
      by_contra g
      have : u.closed = false := by
        rw [← Bool.not_eq_true, closed_iff]; exact g
      simp [this] at h'
  · rintro (h | ⟨h, h'⟩)
    · exact Or.inl h
    · refine Or.inr ⟨h.symm, ?_⟩
      simp [(closed_iff u).2 h']

theorem uset_below (l : Bd) (r : ℝ) : Below ((uset l).neg) (-r) ↔ Above l r := by
  unfold Above Below uset ubd Bd.neg
  simp only [EReal.coe_neg, EReal.neg_lt_neg_iff, neg_inj]
  constructor
  · rintro (h | ⟨h, h'⟩)
    · exact Or.inl h
    · refine Or.inr ⟨h.symm, ?_⟩
      by_contra g
      have : l.closed = false := by
        rw [← Bool.not_eq_true, closed_iff]; exact g
      simp [this] at h'
  · rintro (h | ⟨h, h'⟩)
    · exact Or.inl h
    · refine Or.inr ⟨h.symm, ?_⟩
      simp [(closed_iff l).2 h']

theorem neg_isInt (r : ℝ) : (∃ z : ℤ, -r = z) ↔ ∃ z : ℤ, r = z := by
  constructor
  · rintro ⟨z, hz⟩; exact ⟨-z, by push_cast; linarith⟩
  · rintro ⟨z, hz⟩; exact ⟨-z, by push_cast; linarith⟩

/-- **C54**: unary minus is exact. -/
theorem C54_neg_mem (x : Iv) (r : ℝ) : Mem (neg x) (-r) ↔ Mem x r := by
  rw [mem_def, mem_def]
  show Above (lset x.up).neg (-r) ∧ Below (uset x.lo).neg (-r) ∧ _ ↔ _
  rw [lset_above, uset_below, neg_isInt]
  show Below x.up r ∧ Above x.lo r ∧ (x.int = true → _) ↔ _
  tauto

/-- **C54**: the absolute value of every member is in `abs`. -/
theorem C54_abs_mem (x : Iv) (hx : Proper x) (r : ℝ) (h : Mem x r) : Mem (abs x) |r| := by
  unfold abs
  by_cases h1 : ltV x 0
  · rw [if_pos h1]
    have : r < 0 := (C54_value_comparisons x 0).1 (by simpa using h1) r h
    rw [abs_of_neg this]
    exact (C54_neg_mem x r).2 h
  rw [if_neg h1]
  by_cases h2 : ¬ gtV x 0
  · rw [if_pos h2]
    obtain ⟨a, b, c⟩ := h
    rw [mem_def]
    refine ⟨?_, ?_, ?_⟩
    · show Above ⟨0, 0⟩ |r|
      rw [above_coe (s := 0) (by simp)]
      rcases lt_or_eq_of_le (abs_nonneg r) with g | g
      · exact Or.inl g
      · exact Or.inr ⟨g, rfl⟩
    · show Below (if ((uset x.lo).neg).gt x.up then (uset x.lo).neg else x.up) |r|
      have hub : UpOk ((uset x.lo).neg) := by
        unfold UpOk uset ubd Bd.neg
        cases x.lo.closed <;> simp
      have hup := hx.bdOk.upOk
      have hmax : ∀ t : ℝ, (Below ((uset x.lo).neg) t ∨ Below x.up t) →
          Below (if ((uset x.lo).neg).gt x.up then (uset x.lo).neg else x.up) t := by
        intro t ht
        split_ifs with g
        · rw [Bd.gt_key] at g
          rcases ht with q | q
          · exact q
          · rw [below_key hub]; exact ((below_key hup t).1 q).trans g.le
        · rw [Bd.gt_key, not_lt] at g
          rcases ht with q | q
          · rw [below_key hup]; exact ((below_key hub t).1 q).trans g
          · exact q
      apply hmax
      rcases abs_choice r with g | g
      · rw [g]; exact Or.inr b
      · rw [g]; exact Or.inl ((uset_below x.lo r).2 a)
    · intro hi
      obtain ⟨z, hz⟩ := c hi
      exact ⟨|z|, by rw [hz]; push_cast; rfl⟩
  · rw [if_neg h2]
    have h2' : gtV x ((0 : ℝ) : EReal) := by
      have := not_not.1 h2
      simpa using this
    have : r > 0 := (C54_value_comparisons x 0).2.1 h2' r h
    rw [abs_of_pos this]
    exact h

/-! ## Addition and subtraction -/

theorem above_addV {b : Bd} {r : ℝ} (h : Above b r) (y : ℝ) : Above (b.addV y) (r + y) := by
  unfold Above Bd.addV at *
  simp only [EReal.coe_add]
  rcases h with h | ⟨h, h'⟩
  · left
    exact EReal.add_lt_add_right_coe h y
  · right; exact ⟨by rw [h], h'⟩

theorem below_addV {b : Bd} {r : ℝ} (h : Below b r) (y : ℝ) : Below (b.addV y) (r + y) := by
  unfold Below Bd.addV at *
  simp only [EReal.coe_add]
  rcases h with h | ⟨h, h'⟩
  · left
    exact EReal.add_lt_add_right_coe h y
  · right; exact ⟨by rw [h], h'⟩

theorem addV_flags {b : Bd} (y : ℝ) (h : LoOk b) : LoOk (b.addV y) := by
  rcases h with g | g | ⟨g, g'⟩
  · exact Or.inl g
  · exact Or.inr (Or.inl g)
  · refine Or.inr (Or.inr ⟨?_, g'⟩); simp [Bd.addV, g]

theorem addV_flags' {b : Bd} (y : ℝ) (h : UpOk b) : UpOk (b.addV y) := by
  rcases h with g | g | ⟨g, g'⟩
  · exact Or.inl g
  · exact Or.inr (Or.inl g)
  · refine Or.inr (Or.inr ⟨?_, g'⟩); simp [Bd.addV, g]

/-- **C54**: adding a number adds it to every member. -/
theorem C54_addV_mem (x : Iv) (hx : Ok x) (y : ℝ) (r : ℝ) (h : Mem x r) : Mem (addV x y) (r + y) := by
  unfold addV
  simp only
  split_ifs with g
  · rw [C54_setMaybeReal_mem]
    exact ⟨above_addV h.1 y, below_addV h.2.1 y⟩
  · push Not at g
    rw [C54_setInteger_mem _ (addV_flags y (ok_lo hx)) (addV_flags' y (ok_up hx))]
    refine ⟨above_addV h.1 y, below_addV h.2.1 y, ?_⟩
    obtain ⟨z, hz⟩ := h.2.2 (by simpa using g.1)
    obtain ⟨w, hw⟩ := g.2
    have : y = w := by exact_mod_cast hw
    exact ⟨z + w, by push_cast; rw [hz, this]⟩

theorem ladd_above {b c : Bd} {r s : ℝ} (h1 : Above b r) (h2 : Above c s) :
    Above (ladd b c) (r + s) := by
  have k1 : b.v ≤ (r : EReal) := by rcases h1 with q | q; exacts [q.le, q.1.le]
  have k2 : c.v ≤ (s : EReal) := by rcases h2 with q | q; exacts [q.le, q.1.le]
  unfold Above ladd
  simp only [EReal.coe_add]
  rcases h1 with h1 | ⟨h1, f1⟩
  · left
    rw [add_comm, add_comm (r : EReal)]
    calc c.v + b.v ≤ (s : EReal) + b.v := by gcongr
      _ < (s : EReal) + r := by
        rw [add_comm, add_comm (s : EReal)]
        exact EReal.add_lt_add_right_coe h1 s
  · rcases h2 with h2 | ⟨h2, f2⟩
    · left
      rw [h1, add_comm, add_comm (r : EReal)]
      exact EReal.add_lt_add_right_coe h2 r
    · right
      refine ⟨by rw [h1, h2], ?_⟩
      simp [(closed_iff b).2 f1, (closed_iff c).2 f2]

theorem uadd_below {b c : Bd} {r s : ℝ} (h1 : Below b r) (h2 : Below c s) :
    Below (uadd b c) (r + s) := by
  have k1 : (r : EReal) ≤ b.v := by rcases h1 with q | q; exacts [q.le, q.1.le]
  have k2 : (s : EReal) ≤ c.v := by rcases h2 with q | q; exacts [q.le, q.1.le]
  unfold Below uadd
  simp only [EReal.coe_add]
  rcases h1 with h1 | ⟨h1, f1⟩
  · left
    calc (r : EReal) + s < b.v + s := EReal.add_lt_add_right_coe h1 s
      _ ≤ b.v + c.v := by gcongr
  · rcases h2 with h2 | ⟨h2, f2⟩
    · left
      rw [← h1, add_comm, add_comm (r : EReal)]
      exact EReal.add_lt_add_right_coe h2 r
    · right
      refine ⟨by rw [← h1, ← h2], ?_⟩
      simp [(closed_iff b).2 f1, (closed_iff c).2 f2]

theorem onePoint_mem {x : Iv} (hx : Proper x) (h : x.onePoint) :
    ∃ t : ℝ, x.lo.v = t ∧ ∀ r, Mem x r ↔ r = t := by
  unfold Iv.onePoint at h
  have f1 : x.lo.f = 0 := by
    have := congrArg Bd.f h
    rcases hx.lf with q | q <;> rcases hx.uf with q' | q' <;> omega
  induction hv : x.lo.v using EReal.rec with
  | bot => have := hx.lbot hv; omega
  | top => exact absurd hv hx.ltop
  | coe t =>
    refine ⟨t, rfl, fun r => ⟨?_, ?_⟩⟩
    · rintro ⟨h1, h2, -⟩
      have h1' : Above x.lo r := h1
      have h2' : Below x.up r := h2
      rw [above_coe hv] at h1'
      rw [below_coe (s := t) (by rw [← h]; exact hv)] at h2'
      rcases h1' with q | q <;> rcases h2' with q' | q'
      · linarith
      · exact q'.1
      · exact q.1.symm
      · exact q'.1
    · rintro rfl; exact hx.lo_mem _ hv f1

theorem ladd_ok (b c : Bd) (hb : b.f = 0 ∨ b.f = 1) : LoOk (ladd b c) := by
  unfold LoOk ladd
  simp only
  split_ifs
  · exact Or.inl rfl
  · exact Or.inr (Or.inl rfl)
  · rcases hb with q | q <;> simp [q]

theorem uadd_ok (b c : Bd) (hb : b.f = 0 ∨ b.f = -1) : UpOk (uadd b c) := by
  unfold UpOk uadd
  simp only
  split_ifs
  · exact Or.inl rfl
  · exact Or.inr (Or.inl rfl)
  · rcases hb with q | q <;> simp [q]

/-- **C54**: the sum of two intervals contains every sum of members. -/
theorem C54_add_mem (x y : Iv) (hx : Proper x) (hy : Proper y) (r s : ℝ) (h1 : Mem x r)
    (h2 : Mem y s) : Mem (add x y) (r + s) := by
  unfold add
  by_cases g : y.onePoint
  · rw [if_pos g]
    obtain ⟨t, ht, hm⟩ := onePoint_mem hy g
    rw [ht, (hm s).1 h2]
    exact C54_addV_mem x (Or.inr hx) t r h1
  · rw [if_neg g]
    simp only
    split_ifs with g'
    · rw [C54_setMaybeReal_mem]
      exact ⟨ladd_above h1.1 h2.1, uadd_below h1.2.1 h2.2.1⟩
    · push Not at g'
      rw [C54_setInteger_mem _ (ladd_ok _ _ hx.lf) (uadd_ok _ _ hx.uf)]
      refine ⟨ladd_above h1.1 h2.1, uadd_below h1.2.1 h2.2.1, ?_⟩
      obtain ⟨z, hz⟩ := h1.2.2 (by simpa using g'.1)
      obtain ⟨w, hw⟩ := h2.2.2 (by simpa using g'.2)
      exact ⟨z + w, by push_cast; rw [hz, hw]⟩

/-- Subtraction, whatever the normal form of the subtrahend. -/
theorem sub_any (x y : Iv) (hx : Proper x) (r s : ℝ) (h1 : Mem x r)
    (h2 : Mem y s) : Mem (sub x y) (r - s) := by
  unfold sub
  by_cases g : y.onePoint
  · rw [if_pos g]
    have hv : y.lo.v = (s : EReal) := by
      have q1 : y.lo.v ≤ (s : EReal) := by rcases h2.1 with q | q; exacts [q.le, q.1.le]
      have q2 : (s : EReal) ≤ y.up.v := by rcases h2.2.1 with q | q; exacts [q.le, q.1.le]
      rw [← show y.lo = y.up from g] at q2
      exact le_antisymm q1 q2
    rw [hv]
    have := C54_addV_mem x (Or.inr hx) (-s) r h1
    rw [EReal.coe_neg] at this
    exact this
  · rw [if_neg g]
    simp only
    -- subtraction of a boundary is addition of its negative
    have el : lsub x.lo y.up = ladd x.lo ⟨-y.up.v, y.up.f⟩ := by
      simp only [lsub, ladd, sub_eq_add_neg, Bd.closed]; rfl
    have eu : usub x.up y.lo = uadd x.up ⟨-y.lo.v, y.lo.f⟩ := by
      simp only [usub, uadd, sub_eq_add_neg, Bd.closed]; rfl
    have a2 : Above ⟨-y.up.v, y.up.f⟩ (-s) := by
      unfold Above
      simp only [EReal.coe_neg, EReal.neg_lt_neg_iff, neg_inj]
      rcases h2.2.1 with q | ⟨q, q'⟩
      · exact Or.inl q
      · exact Or.inr ⟨q.symm, q'⟩
    have b2 : Below ⟨-y.lo.v, y.lo.f⟩ (-s) := by
      unfold Below
      simp only [EReal.coe_neg, EReal.neg_lt_neg_iff, neg_inj]
      rcases h2.1 with q | ⟨q, q'⟩
      · exact Or.inl q
      · exact Or.inr ⟨q.symm, q'⟩
    rw [el, eu]
    have A := ladd_above h1.1 a2
    have B := uadd_below h1.2.1 b2
    rw [← sub_eq_add_neg] at A B
    split_ifs with g'
    · rw [C54_setMaybeReal_mem]
      exact ⟨A, B⟩
    · push Not at g'
      rw [C54_setInteger_mem _ (ladd_ok _ _ hx.lf) (uadd_ok _ _ hx.uf)]
      refine ⟨A, B, ?_⟩
      obtain ⟨z, hz⟩ := h1.2.2 (by simpa using g'.1)
      obtain ⟨w, hw⟩ := h2.2.2 (by simpa using g'.2)
      exact ⟨z - w, by push_cast; rw [hz, hw]⟩

/-- **C54**: the same for subtraction. -/
theorem C54_sub_mem (x y : Iv) (hx : Proper x) (_ : Proper y) (r s : ℝ) (h1 : Mem x r)
    (h2 : Mem y s) : Mem (sub x y) (r - s) := sub_any x y hx r s h1 h2

/-! ## Minimum, square: where the code is wrong -/

/-- The closed interval of the reals (or the integers) between two numbers. -/
noncomputable def cl (a b : ℝ) (t : Bool) : Iv := ⟨⟨a, 0⟩, ⟨b, 0⟩, t⟩

theorem cl_mem (a b : ℝ) (t : Bool) (r : ℝ) :
    Mem (cl a b t) r ↔ a ≤ r ∧ r ≤ b ∧ (t = true → ∃ z : ℤ, r = z) := by
  rw [mem_def]
  unfold cl
  rw [above_coe (s := a) rfl, below_coe (s := b) rfl]
  simp [le_iff_lt_or_eq]

theorem cl_proper_real (a b : ℝ) (h : a < b) : Proper (cl a b false) := by
  refine ⟨Or.inl rfl, Or.inl rfl, ?_, ?_, EReal.coe_ne_top _, EReal.coe_ne_bot _, ?_, ?_, ?_, ?_⟩
  · intro g; exact absurd g (EReal.coe_ne_bot _)
  · intro g; exact absurd g (EReal.coe_ne_top _)
  · rw [Bd.le_iff]; left; exact EReal.coe_lt_coe_iff.2 h
  · intro g; cases g
  · intro g; cases g
  · rintro - ⟨g, -⟩
    have := congrArg Bd.v g
    have h' : a = b := EReal.coe_injective this
    linarith

theorem cl_proper_int (a b : ℤ) (h : a ≤ b) : Proper (cl a b true) := by
  refine ⟨Or.inl rfl, Or.inl rfl, ?_, ?_, EReal.coe_ne_top _, EReal.coe_ne_bot _, ?_, ?_, ?_, ?_⟩
  · intro g; exact absurd g (EReal.coe_ne_bot _)
  · intro g; exact absurd g (EReal.coe_ne_top _)
  · rw [Bd.le_iff]
    rcases lt_or_eq_of_le h with g | rfl
    · left; exact EReal.coe_lt_coe_iff.2 (by exact_mod_cast g)
    · right; exact ⟨rfl, le_rfl⟩
  · intro _; exact Or.inr ⟨⟨a, rfl⟩, rfl⟩
  · intro _; exact Or.inr ⟨⟨b, rfl⟩, rfl⟩
  · intro g; cases g

/-- **C54** refuted for the minimum: the integers of [0, 10] against the reals of [5, 20]: 5.5 is the
minimum of 10 and 5.5, but `min_assign` answers the integers of [0, 10]. -/
theorem C109_min_refuted :
    ∃ (x y : Iv) (r s : ℝ), Proper x ∧ Proper y ∧ Mem x r ∧ Mem y s ∧ ¬ Mem (minA x y) (min r s) := by
  refine ⟨cl (0 : ℤ) (10 : ℤ) true, cl 5 20 false, 10, 11 / 2, cl_proper_int 0 10 (by norm_num),
    cl_proper_real 5 20 (by norm_num), ?_, ?_, ?_⟩
  · rw [cl_mem]; refine ⟨by norm_num, by norm_num, fun _ => ⟨10, by norm_num⟩⟩
  · rw [cl_mem]; refine ⟨by norm_num, by norm_num, by simp⟩
  · have h1 : ¬ (cl 5 20 false).lo.lt (cl (0 : ℤ) (10 : ℤ) true).lo := by
      rintro (h | ⟨h, h'⟩)
      · have : (5 : ℝ) < (0 : ℤ) := EReal.coe_lt_coe_iff.1 h
        norm_num at this
      · exact absurd h' (lt_irrefl _)
    have h2 : ¬ (cl 5 20 false).up.lt (cl (0 : ℤ) (10 : ℤ) true).up := by
      rintro (h | ⟨h, h'⟩)
      · have : (20 : ℝ) < (10 : ℤ) := EReal.coe_lt_coe_iff.1 h
        norm_num at this
      · exact absurd h' (lt_irrefl _)
    unfold minA
    rw [if_neg h1, if_neg h2, cl_mem]
    rintro ⟨-, -, h⟩
    obtain ⟨z, hz⟩ := h rfl
    rw [min_eq_right (by norm_num)] at hz
    have h3 : (5 : ℝ) < z := by rw [← hz]; norm_num
    have h4 : (z : ℝ) < 6 := by rw [← hz]; norm_num
    have h5 : (5 : ℤ) < z := by exact_mod_cast h3
    have h6 : z < (6 : ℤ) := by exact_mod_cast h4
    omega

/-- **C54**: the minimum of intervals of the same kind contains every minimum of members. -/
theorem C109_min_mem_partial (x y : Iv) (hx : Proper x) (hy : Proper y) (hxy : x.int = y.int) (r s : ℝ)
    (h1 : Mem x r) (h2 : Mem y s) : Mem (minA x y) (min r s) := by
  have hint : x.int = true → ∃ z : ℤ, min r s = z := by
    intro hi
    rcases min_choice r s with g | g
    · rw [g]; exact h1.2.2 hi
    · rw [g]; exact h2.2.2 (hxy ▸ hi)
  -- the lower boundary is below both, the upper one above the minimum
  have hlx := (above_key hx.bdOk.loOk r).1 h1.1
  have hly := (above_key hy.bdOk.loOk s).1 h2.1
  have hux := below_mono h1.2.1 (min_le_left r s)
  have huy := below_mono h2.2.1 (min_le_right r s)
  have hmin : ∀ l : Bd, LoOk l → l.key ≤ x.lo.key → l.key ≤ y.lo.key → Above l (min r s) := by
    intro l hl a b
    rw [above_key hl]
    rcases min_choice r s with g | g
    · rw [g]; exact a.trans hlx
    · rw [g]; exact b.trans hly
  unfold minA
  split_ifs with a b c c
  · rw [Bd.lt_key] at a
    exact ⟨hmin _ hy.bdOk.loOk a.le le_rfl, huy, fun hi => hint (hxy ▸ hi)⟩
  · rw [Bd.lt_key] at a
    exact ⟨hmin _ hy.bdOk.loOk a.le le_rfl, hux, fun hi => absurd hi (by simp)⟩
  · rw [Bd.lt_key] at a
    exact ⟨hmin _ hy.bdOk.loOk a.le le_rfl, hux, hint⟩
  · rw [Bd.lt_key, not_lt] at a
    exact ⟨hmin _ hx.bdOk.loOk le_rfl a, huy, fun hi => absurd hi (by simp)⟩
  · rw [Bd.lt_key, not_lt] at a
    exact ⟨hmin _ hx.bdOk.loOk le_rfl a, huy, hint⟩
  · rw [Bd.lt_key, not_lt] at a
    exact ⟨hmin _ hx.bdOk.loOk le_rfl a, hux, hint⟩

/-- The same for the maximum. -/
theorem C109_max_mem_partial (x y : Iv) (hx : Proper x) (hy : Proper y) (hxy : x.int = y.int) (r s : ℝ)
    (h1 : Mem x r) (h2 : Mem y s) : Mem (maxA x y) (max r s) := by
  have hint : x.int = true → ∃ z : ℤ, max r s = z := by
    intro hi
    rcases max_choice r s with g | g
    · rw [g]; exact h1.2.2 hi
    · rw [g]; exact h2.2.2 (hxy ▸ hi)
  have hux := (below_key hx.bdOk.upOk r).1 h1.2.1
  have huy := (below_key hy.bdOk.upOk s).1 h2.2.1
  have hlx := above_mono h1.1 (le_max_left r s)
  have hly := above_mono h2.1 (le_max_right r s)
  have hmax : ∀ u : Bd, UpOk u → x.up.key ≤ u.key → y.up.key ≤ u.key → Below u (max r s) := by
    intro u hu a b
    rw [below_key hu]
    rcases max_choice r s with g | g
    · rw [g]; exact hux.trans a
    · rw [g]; exact huy.trans b
  unfold maxA
  split_ifs with a b c d e
  · rw [Bd.gt_key] at b
    exact ⟨hly, hmax _ hy.bdOk.upOk b.le le_rfl, fun hi => hint (hxy ▸ hi)⟩
  · rw [Bd.gt_key, not_lt] at b
    exact ⟨hly, hmax _ hx.bdOk.upOk le_rfl b, fun hi => absurd hi (by simp)⟩
  · rw [Bd.gt_key, not_lt] at b
    exact ⟨hly, hmax _ hx.bdOk.upOk le_rfl b, hint⟩
  · rw [Bd.gt_key] at d
    exact ⟨hlx, hmax _ hy.bdOk.upOk d.le le_rfl, fun hi => absurd hi (by simp)⟩
  · rw [Bd.gt_key] at d
    exact ⟨hlx, hmax _ hy.bdOk.upOk d.le le_rfl, hint⟩
  · rw [Bd.gt_key, not_lt] at d
    exact ⟨hlx, hmax _ hx.bdOk.upOk le_rfl d, hint⟩

/-- Not below the lower boundary of `y`, hence smaller than every member. -/
theorem lt_of_not_above {y : Iv} {s t : ℝ} (h : ¬Above y.lo t) (hs : Mem y s) : t < s := by
  by_contra h'
  exact h (above_mono hs.1 (not_lt.mp h'))

theorem lt_of_not_below {y : Iv} {s t : ℝ} (h : ¬Below y.up t) (hs : Mem y s) : s < t := by
  by_contra h'
  exact h (below_mono hs.2.1 (not_lt.mp h'))

theorem minA_mem_iff (x y : Iv) (hx : Proper x) (hy : Proper y) (hxy : x.int = y.int) (t : ℝ) :
    Mem (minA x y) t ↔ (Above x.lo t ∨ Above y.lo t) ∧ (Below x.up t ∧ Below y.up t) ∧
      (x.int = true → ∃ z : ℤ, t = z) := by
  have ax := above_key hx.bdOk.loOk t
  have ay := above_key hy.bdOk.loOk t
  have bx := below_key hx.bdOk.upOk t
  have bY := below_key hy.bdOk.upOk t
  have hint : (if y.int = false then false else x.int) = x.int := by rw [← hxy]; cases x.int <;> rfl
  have e : minA x y = ⟨if y.lo.lt x.lo then y.lo else x.lo, if y.up.lt x.up then y.up else x.up, x.int⟩ := by
    unfold minA
    by_cases a : y.lo.lt x.lo <;> by_cases b : y.up.lt x.up <;> simp only [a, b, if_true, if_false, hint]
    rw [hxy]
  rw [e, mem_def]
  dsimp only
  have hl : Above (if y.lo.lt x.lo then y.lo else x.lo) t ↔ (Above x.lo t ∨ Above y.lo t) := by
    rw [ax, ay]
    split_ifs with a
    · rw [Bd.lt_key] at a; rw [ay]; exact ⟨Or.inr, fun h => h.elim (fun h => a.le.trans h) id⟩
    · rw [Bd.lt_key, not_lt] at a; rw [ax]; exact ⟨Or.inl, fun h => h.elim id (fun h => a.trans h)⟩
  have hu : Below (if y.up.lt x.up then y.up else x.up) t ↔ (Below x.up t ∧ Below y.up t) := by
    rw [bx, bY]
    split_ifs with a
    · rw [Bd.lt_key] at a; rw [bY]; exact ⟨fun h => ⟨h.trans a.le, h⟩, And.right⟩
    · rw [Bd.lt_key, not_lt] at a; rw [bx]; exact ⟨fun h => ⟨h, h.trans a⟩, And.left⟩
  rw [hl, hu]

/-- **C54**, exactness of the minimum of intervals of the same kind: it contains nothing but minima of members. -/
theorem C109_min_exact (x y : Iv) (hx : Proper x) (hy : Proper y) (hxy : x.int = y.int) (t : ℝ) :
    Mem (minA x y) t ↔ ∃ r s, Mem x r ∧ Mem y s ∧ t = min r s := by
  constructor
  · intro h
    rw [minA_mem_iff x y hx hy hxy] at h
    obtain ⟨ha, ⟨b1, b2⟩, hi⟩ := h
    obtain ⟨r0, hr0⟩ := hx.nonempty
    obtain ⟨s0, hs0⟩ := hy.nonempty
    by_cases a1 : Above x.lo t
    · by_cases a2 : Above y.lo t
      · exact ⟨t, t, ⟨a1, b1, hi⟩, ⟨a2, b2, fun h => hi (hxy ▸ h)⟩, by simp⟩
      · exact ⟨t, s0, ⟨a1, b1, hi⟩, hs0, (min_eq_left (lt_of_not_above a2 hs0).le).symm⟩
    · exact ⟨r0, t, hr0, ⟨ha.resolve_left a1, b2, fun h => hi (hxy ▸ h)⟩,
        (min_eq_right (lt_of_not_above a1 hr0).le).symm⟩
  · rintro ⟨r, s, h1, h2, rfl⟩
    exact C109_min_mem_partial x y hx hy hxy r s h1 h2

theorem maxA_mem_iff (x y : Iv) (hx : Proper x) (hy : Proper y) (hxy : x.int = y.int) (t : ℝ) :
    Mem (maxA x y) t ↔ (Above x.lo t ∧ Above y.lo t) ∧ (Below x.up t ∨ Below y.up t) ∧
      (x.int = true → ∃ z : ℤ, t = z) := by
  have ax := above_key hx.bdOk.loOk t
  have ay := above_key hy.bdOk.loOk t
  have bx := below_key hx.bdOk.upOk t
  have bY := below_key hy.bdOk.upOk t
  have hint : (if y.int = false then false else x.int) = x.int := by rw [← hxy]; cases x.int <;> rfl
  have e : maxA x y = ⟨if y.lo.gt x.lo then y.lo else x.lo, if y.up.gt x.up then y.up else x.up, x.int⟩ := by
    unfold maxA
    by_cases a : y.lo.gt x.lo <;> by_cases b : y.up.gt x.up <;> simp only [a, b, if_true, if_false, hint]
    rw [hxy]
  rw [e, mem_def]
  dsimp only
  have hl : Above (if y.lo.gt x.lo then y.lo else x.lo) t ↔ (Above x.lo t ∧ Above y.lo t) := by
    rw [ax, ay]
    split_ifs with a
    · rw [Bd.gt_key] at a; rw [ay]; exact ⟨fun h => ⟨a.le.trans h, h⟩, And.right⟩
    · rw [Bd.gt_key, not_lt] at a; rw [ax]; exact ⟨fun h => ⟨h, a.trans h⟩, And.left⟩
  have hu : Below (if y.up.gt x.up then y.up else x.up) t ↔ (Below x.up t ∨ Below y.up t) := by
    rw [bx, bY]
    split_ifs with a
    · rw [Bd.gt_key] at a; rw [bY]; exact ⟨Or.inr, fun h => h.elim (fun h => h.trans a.le) id⟩
    · rw [Bd.gt_key, not_lt] at a; rw [bx]; exact ⟨Or.inl, fun h => h.elim id (fun h => h.trans a)⟩
  rw [hl, hu]

/-- The same for the maximum. -/
theorem C109_max_exact (x y : Iv) (hx : Proper x) (hy : Proper y) (hxy : x.int = y.int) (t : ℝ) :
    Mem (maxA x y) t ↔ ∃ r s, Mem x r ∧ Mem y s ∧ t = max r s := by
  constructor
  · intro h
    rw [maxA_mem_iff x y hx hy hxy] at h
    obtain ⟨⟨a1, a2⟩, hb, hi⟩ := h
    obtain ⟨r0, hr0⟩ := hx.nonempty
    obtain ⟨s0, hs0⟩ := hy.nonempty
    by_cases b1 : Below x.up t
    · by_cases b2 : Below y.up t
      · exact ⟨t, t, ⟨a1, b1, hi⟩, ⟨a2, b2, fun h => hi (hxy ▸ h)⟩, by simp⟩
      · exact ⟨t, s0, ⟨a1, b1, hi⟩, hs0, (max_eq_left (lt_of_not_below b2 hs0).le).symm⟩
    · exact ⟨r0, t, hr0, ⟨a2, hb.resolve_left b1, fun h => hi (hxy ▸ h)⟩,
        (max_eq_right (lt_of_not_below b1 hr0).le).symm⟩
  · rintro ⟨r, s, h1, h2, rfl⟩
    exact C109_max_mem_partial x y hx hy hxy r s h1 h2

/-- **C54** refuted for the square: [-3, -2] squares to an interval that does not contain 4. -/
theorem C109_sqr_refuted :
    ∃ (x : Iv) (r : ℝ), Proper x ∧ Mem x r ∧ ¬ Mem (sqr x) (r * r) := by
  refine ⟨cl (-3) (-2) false, -2, cl_proper_real _ _ (by norm_num), ?_, ?_⟩
  · rw [cl_mem]; refine ⟨by norm_num, by norm_num, by simp⟩
  · have h1 : ltV (cl (-3) (-2) false) 0 := by
      left
      show (((-2 : ℝ)) : EReal) < 0
      exact_mod_cast (by norm_num : (-2 : ℝ) < 0)
    have hs : sqr (cl (-3) (-2) false) = Iv.setMaybeReal ⟨lmul (lset (cl (-3) (-2) false).up) (lset (cl (-3) (-2) false).up),
        umul (uset (cl (-3) (-2) false).lo) (lmul (lset (cl (-3) (-2) false).up) (lset (cl (-3) (-2) false).up)), false⟩ := by
      unfold sqr
      rw [if_pos h1]
      rfl
    have n2 : (((-2 : ℝ)) : EReal) ≠ 0 := by exact_mod_cast (by norm_num : (-2 : ℝ) ≠ 0)
    have n3 : (((-3 : ℝ)) : EReal) ≠ 0 := by exact_mod_cast (by norm_num : (-3 : ℝ) ≠ 0)
    have e1 : lmul (lset (cl (-3) (-2) false).up) (lset (cl (-3) (-2) false).up) = ⟨((4 : ℝ) : EReal), 0⟩ := by
      have : lset (cl (-3) (-2) false).up = ⟨((-2 : ℝ) : EReal), 0⟩ := by simp [lset, cl, lbd, Bd.closed]
      rw [this]
      unfold lmul
      simp only [n2, if_false, ne_eq, not_false_eq_true, if_true, Bd.closed]
      rw [← EReal.coe_mul]
      norm_num
    have n4 : (((4 : ℝ)) : EReal) ≠ 0 := by exact_mod_cast (by norm_num : (4 : ℝ) ≠ 0)
    have e2 : umul (uset (cl (-3) (-2) false).lo) ⟨((4 : ℝ) : EReal), 0⟩ = ⟨((-12 : ℝ) : EReal), 0⟩ := by
      have : uset (cl (-3) (-2) false).lo = ⟨((-3 : ℝ) : EReal), 0⟩ := by simp [uset, cl, ubd, Bd.closed]
      rw [this]
      unfold umul
      simp only [n3, n4, if_false, ne_eq, not_false_eq_true, if_true, Bd.closed]
      rw [← EReal.coe_mul]
      norm_num
    rw [hs, e1, e2, C54_setMaybeReal_mem]
    rintro ⟨-, h⟩
    rw [below_coe (s := -12) rfl] at h
    norm_num at h

/-- What is right about the square: intervals that are not entirely negative. -/
theorem C109_sqr_mem_partial (x : Iv) (hx : Proper x) (hn : ¬ ltV x 0) (r : ℝ) (h : Mem x r) :
    Mem (sqr x) (r * r) := by
  -- squares of boundaries
  have key : ∀ (u : Bd) (t : ℝ), UpOk u → u.v ≠ ⊥ → 0 ≤ t → Below u t → Below (umul u u) (t * t) := by
    intro u t hu hb ht hbl
    have hle : (t : EReal) ≤ u.v := by rcases hbl with q | q; exacts [q.le, q.1.le]
    induction hv : u.v using EReal.rec with
    | bot => exact absurd hv hb
    | top =>
      left
      unfold umul
      rw [hv]
      simp only [EReal.top_ne_zero, if_false, ne_eq, not_false_eq_true, if_true]
      rw [EReal.top_mul_top]
      exact EReal.coe_lt_top _
    | coe s =>
      rw [below_coe hv] at hbl
      by_cases hs : s = 0
      · subst hs
        have hz : u.v = 0 := by rw [hv]; rfl
        unfold umul
        rw [if_pos hz, below_coe (s := 0) rfl]
        rcases hbl with q | ⟨q, q'⟩
        · linarith
        · right; exact ⟨by rw [q]; ring, by rw [if_pos ((closed_iff u).2 q')]⟩
      · have hz : u.v ≠ 0 := by rw [hv]; exact_mod_cast hs
        unfold umul
        rw [if_neg hz, if_pos hz, below_coe (s := s * s) (by simp only [hv]; rw [← EReal.coe_mul])]
        rcases hbl with q | ⟨q, q'⟩
        · left; nlinarith
        · right
          refine ⟨by rw [q], ?_⟩
          simp [(closed_iff u).2 q']
  have keyl : ∀ (l : Bd) (t : ℝ), LoOk l → gtV ⟨l, l, false⟩ 0 → Above l t → Above (lmul l l) (t * t) := by
    intro l t hl hg ha
    have hle : l.v ≤ (t : EReal) := by rcases ha with q | q; exacts [q.le, q.1.le]
    induction hv : l.v using EReal.rec with
    | bot =>
      rcases hg with q | ⟨q, -⟩
      · simp only at q
        rw [hv] at q; exact absurd q (not_lt.2 bot_le)
      · simp only at q
        rw [hv] at q; exact absurd q EReal.bot_ne_zero
    | top => rw [hv] at hle; exact absurd (top_le_iff.1 hle) (EReal.coe_ne_top _)
    | coe s =>
      rw [above_coe hv] at ha
      have hg' : 0 < s ∨ (s = 0 ∧ l.f > 0) := by
        rcases hg with q | ⟨q, q'⟩
        · simp only at q
          rw [hv] at q; left; exact_mod_cast q
        · simp only at q
          rw [hv] at q; right; exact ⟨by exact_mod_cast q, q'⟩
      rcases hg' with hs | ⟨rfl, hf⟩
      · have hz : l.v ≠ 0 := by rw [hv]; exact_mod_cast hs.ne'
        unfold lmul
        rw [if_neg hz, if_pos hz, above_coe (s := s * s) (by simp only [hv]; rw [← EReal.coe_mul])]
        rcases ha with q | ⟨q, q'⟩
        · left; nlinarith
        · right
          refine ⟨by rw [q], ?_⟩
          simp [(closed_iff l).2 q']
      · have hz : l.v = 0 := by rw [hv]; rfl
        unfold lmul
        rw [if_pos hz, above_coe (s := 0) rfl]
        rcases ha with q | ⟨q, q'⟩
        · left; positivity
        · omega
  have hint : x.int = true → ∃ z : ℤ, r * r = z := by
    intro hi
    obtain ⟨z, hz⟩ := h.2.2 hi
    exact ⟨z * z, by push_cast; rw [hz]⟩
  unfold sqr
  simp only
  rw [if_neg hn]
  by_cases hg : gtV x 0
  · rw [if_pos hg]
    have hr : r > 0 := (C54_value_comparisons x 0).2.1 (by simpa using hg) r h
    have A := keyl x.lo r hx.bdOk.loOk hg h.1
    have B := key x.up r hx.bdOk.upOk hx.ubot hr.le h.2.1
    split_ifs with hi
    · rw [C54_setMaybeReal_mem]; exact ⟨A, B⟩
    · have lok : LoOk (lmul x.lo x.lo) := by
        unfold LoOk lmul
        have := hx.lf
        split_ifs <;> (simp_all; try tauto)
      have uok : UpOk (umul x.up x.up) := by
        unfold UpOk umul
        have := hx.uf
        split_ifs <;> (simp_all; try tauto)
      rw [C54_setInteger_mem _ lok uok]
      exact ⟨A, B, hint (by simpa using hi)⟩
  · rw [if_neg hg]
    have hab := C54_abs_mem x hx r h
    unfold abs at hab
    rw [if_neg hn, if_pos hg] at hab
    simp only at hab
    have B0 : Below (if ((uset x.lo).neg).gt x.up then (uset x.lo).neg else x.up) |r| := hab.2.1
    have hub : UpOk ((uset x.lo).neg) := by
      unfold UpOk uset ubd Bd.neg
      cases x.lo.closed <;> simp
    have hnb : ((uset x.lo).neg).v ≠ ⊥ := by
      show - x.lo.v ≠ ⊥
      intro g
      exact hx.ltop (by rw [← neg_neg x.lo.v, g]; rfl)
    have hu : UpOk (if ((uset x.lo).neg).gt x.up then (uset x.lo).neg else x.up) := by
      split_ifs; exacts [hub, hx.bdOk.upOk]
    have hunb : (if ((uset x.lo).neg).gt x.up then (uset x.lo).neg else x.up).v ≠ ⊥ := by
      split_ifs; exacts [hnb, hx.ubot]
    have hfu : (if ((uset x.lo).neg).gt x.up then (uset x.lo).neg else x.up).f = 0 ∨
        (if ((uset x.lo).neg).gt x.up then (uset x.lo).neg else x.up).f = -1 := by
      split_ifs
      · unfold uset ubd Bd.neg; cases x.lo.closed <;> simp
      · exact hx.uf
    generalize (if ((uset x.lo).neg).gt x.up then (uset x.lo).neg else x.up) = u at *
    have B := key u |r| hu hunb (abs_nonneg r) B0
    rw [abs_mul_abs_self] at B
    have A : Above ⟨0, 0⟩ (r * r) := by
      rw [above_coe (s := 0) (by simp)]
      rcases lt_or_eq_of_le (mul_self_nonneg r) with g | g
      · exact Or.inl g
      · exact Or.inr ⟨g, rfl⟩
    split_ifs with hi
    · rw [C54_setMaybeReal_mem]; exact ⟨A, B⟩
    · have uok : UpOk (umul u u) := by
        unfold UpOk umul
        split_ifs <;> (simp_all; try tauto)
      rw [C54_setInteger_mem _ (Or.inl rfl) uok]
      exact ⟨A, B, hint (by simpa using hi)⟩

/-! ## An epsilon above -/

/-- **C54** refuted for `set_gt`: the code tests the boundary's former content. A boundary that used to be
at 2^60 and is set just above 3 for an integer interval stays at 2^60, and loses the integer 4. -/
theorem C109_setGt_refuted :
    ∃ (old : Bd) (b : ℝ) (z : ℤ), (b : ℝ) < z ∧ ¬ Above (setGt old b true) z := by
  refine ⟨⟨((1152921504606846976 : ℝ) : EReal), 0⟩, 3, 4, by norm_num, ?_⟩
  unfold setGt
  have h1 : ((3 : ℝ) : EReal) ≠ ⊥ := EReal.coe_ne_bot _
  have h2 : (((1152921504606846976 : ℝ)) : EReal) > maxOdd := by
    unfold maxOdd
    exact EReal.coe_lt_coe_iff.2 (by norm_num)
  rw [if_pos ⟨rfl, h1⟩, if_pos (Or.inr h2), above_coe rfl]
  norm_num

/-- What is right about `set_gt`: when the former content is in the range of the test. -/
theorem C109_setGt_partial (old : Bd) (b : ℝ) (z : ℤ) (h1 : ¬ old.v < -maxOdd - 1)
    (h2 : ¬ old.v > maxOdd) (h3 : old.v ≠ maxFract) : Above (setGt old b true) z ↔ b < z := by
  unfold setGt
  rw [if_pos ⟨rfl, EReal.coe_ne_bot _⟩, if_neg (by tauto), if_neg h3]
  have : ((b : EReal) + 1) = ((b + 1 : ℝ) : EReal) := by rw [EReal.coe_add]; rfl
  rw [this, flo_coe, above_coe rfl]
  simp only [and_true]
  rw [← le_iff_lt_or_eq, Int.floor_add_one]
  have : (((⌊b⌋ + 1 : ℤ) : ℝ) ≤ z) ↔ (⌊b⌋ + 1 ≤ z) := by exact_mod_cast Iff.rfl
  rw [this, Int.add_one_le_iff, Int.floor_lt]

/-! ## The hypotheses are met -/

example : Proper (cl (0 : ℤ) (10 : ℤ) true) := cl_proper_int 0 10 (by norm_num)
example : Proper (cl (-1) 2 false) := cl_proper_real _ _ (by norm_num)
example : Mem (cl (-1) 2 false) (1 / 2) := by rw [cl_mem]; norm_num
example : Proper (Iv.full false) :=
  ⟨Or.inr rfl, Or.inr rfl, fun _ => rfl, fun _ => rfl, bot_ne_top, top_ne_bot,
   (Bd.le_iff _ _).2 (Or.inl bot_lt_top), by simp [Iv.full], by simp [Iv.full],
   fun _ h => by have := congrArg Bd.v h.1; exact absurd this bot_ne_top⟩
example : ¬ ltV (cl (-1) 2 false) 0 := by
  rintro (h | ⟨h, -⟩)
  · have : (2 : ℝ) < 0 := EReal.coe_lt_coe_iff.1 h
    norm_num at this
  · have : (2 : ℝ) = 0 := EReal.coe_injective h
    norm_num at this

end Purrs.Interval
