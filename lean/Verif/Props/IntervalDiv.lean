import Verif.Props.IntervalMul

/-!
# C126, C127: quotients of intervals
-/

namespace Purrs.Interval

open Classical

theorem ldiv_ok {b c : Bd} (hb : b.f = 0 ∨ b.f = 1) : LoOk (ldiv b c) := by
  unfold LoOk ldiv
  split_ifs <;> rcases hb with h | h <;> simp [h]
theorem udiv_ok {b c : Bd} (hb : b.f = 0 ∨ b.f = -1) : UpOk (udiv b c) := by
  unfold UpOk udiv
  split_ifs <;> rcases hb with h | h <;> simp [h]

/-- The inverse of a boundary of an interval of positive numbers, or of a negative number. -/
noncomputable def inv0 (a : EReal) : EReal := if a = 0 then ⊤ else a⁻¹

theorem quo_eq {a b : EReal} (ha : a ≠ 0) : quo a b = a * inv0 b := by
  unfold quo inv0
  split_ifs with h1 h2
  · rw [EReal.mul_top_of_pos h2]
  · rw [EReal.mul_top_of_neg (lt_of_le_of_ne (not_lt.1 h2) ha)]
  · rfl

theorem ldiv_v (b c : Bd) : (ldiv b c).v = b.v * inv0 c.v := by
  unfold ldiv
  by_cases h : b.v = 0
  · rw [if_neg (not_not.2 h), h, zero_mul]
  · rw [if_pos h, ← quo_eq h]
theorem udiv_v (b c : Bd) : (udiv b c).v = b.v * inv0 c.v := by
  unfold udiv
  by_cases h : b.v = 0
  · rw [if_neg (not_not.2 h), h, zero_mul]
  · rw [if_pos h, ← quo_eq h]

theorem ldiv_f {b c : Bd} (h1 : b.f = 0) (h2 : b.v ≠ 0 → c.f = 0) : (ldiv b c).f = 0 := by
  unfold ldiv
  by_cases h : b.v = 0
  · rw [if_neg (not_not.2 h)]; exact h1
  · rw [if_pos h]; simp [Bd.closed, h1, h2 h]
theorem udiv_f {b c : Bd} (h1 : b.f = 0) (h2 : b.v ≠ 0 → c.f = 0) : (udiv b c).f = 0 := by
  unfold udiv
  by_cases h : b.v = 0
  · rw [if_neg (not_not.2 h)]; exact h1
  · rw [if_pos h]; simp [Bd.closed, h1, h2 h]

theorem inv0_coe {a : ℝ} (h : a ≠ 0) : inv0 (a : EReal) = ((a⁻¹ : ℝ) : EReal) := by
  unfold inv0
  rw [if_neg (by exact_mod_cast h), EReal.coe_inv]
theorem inv0_top : inv0 ⊤ = 0 := by simp [inv0]
theorem inv0_bot : inv0 ⊥ = 0 := by simp [inv0]

theorem inv0_eq {a : EReal} {s : ℝ} (hs : s ≠ 0) (h : inv0 a = ((s⁻¹ : ℝ) : EReal)) : a = s := by
  induction a using EReal.rec with
  | bot => rw [inv0_bot] at h; exact absurd (by exact_mod_cast h.symm : s⁻¹ = 0) (inv_ne_zero hs)
  | top => rw [inv0_top] at h; exact absurd (by exact_mod_cast h.symm : s⁻¹ = 0) (inv_ne_zero hs)
  | coe a =>
    by_cases ha : a = 0
    · subst ha
      simp only [inv0, EReal.coe_zero, if_true] at h
      exact absurd h.symm (EReal.coe_ne_top _)
    · rw [inv0_coe ha] at h
      rw [inv_injective (EReal.coe_injective h)]

theorem inv0_pos_ge {a : EReal} {s : ℝ} (h0 : 0 ≤ a) (h : a ≤ (s : EReal)) (hs : 0 < s) : ((s⁻¹ : ℝ) : EReal) ≤ inv0 a := by
  induction a using EReal.rec with
  | bot => exact absurd h0 (by simp)
  | top => exact absurd (top_le_iff.1 h) (EReal.coe_ne_top _)
  | coe a =>
    by_cases ha : a = 0
    · subst ha; simp [inv0]
    · rw [inv0_coe ha, EReal.coe_le_coe_iff]
      have h0 : 0 ≤ a := by exact_mod_cast h0
      have h : a ≤ s := by exact_mod_cast h
      exact inv_anti₀ (lt_of_le_of_ne h0 (Ne.symm ha)) h
theorem inv0_pos_le {a : EReal} {s : ℝ} (h : (s : EReal) ≤ a) (hs : 0 < s) : inv0 a ≤ ((s⁻¹ : ℝ) : EReal) := by
  induction a using EReal.rec with
  | bot => exact absurd (le_bot_iff.1 h) (EReal.coe_ne_bot _)
  | top => rw [inv0_top]; exact_mod_cast (inv_pos.2 hs).le
  | coe a =>
    have h : s ≤ a := by exact_mod_cast h
    rw [inv0_coe (hs.trans_le h).ne', EReal.coe_le_coe_iff]
    exact inv_anti₀ hs h
theorem inv0_neg_ge {a : EReal} {s : ℝ} (h : a ≤ (s : EReal)) (hs : s < 0) : ((s⁻¹ : ℝ) : EReal) ≤ inv0 a := by
  induction a using EReal.rec with
  | bot => rw [inv0_bot]; exact_mod_cast (inv_lt_zero.2 hs).le
  | top => exact absurd (top_le_iff.1 h) (EReal.coe_ne_top _)
  | coe a =>
    have h : a ≤ s := by exact_mod_cast h
    rw [inv0_coe (h.trans_lt hs).ne, EReal.coe_le_coe_iff]
    exact (inv_le_inv_of_neg hs (h.trans_lt hs)).2 h
theorem inv0_neg_le {a : EReal} {s : ℝ} (h : (s : EReal) ≤ a) (h0 : a < 0) : inv0 a ≤ ((s⁻¹ : ℝ) : EReal) := by
  induction a using EReal.rec with
  | bot => exact absurd (le_bot_iff.1 h) (EReal.coe_ne_bot _)
  | top => exact absurd h0 (by simp)
  | coe a =>
    have h : s ≤ a := by exact_mod_cast h
    have h0 : a < 0 := by exact_mod_cast h0
    rw [inv0_coe h0.ne, EReal.coe_le_coe_iff]
    exact (inv_le_inv_of_neg h0 (h.trans_lt h0)).2 h

theorem closed_of_quo {b c : Bd} {r s : ℝ} (hs : s ≠ 0) (nb : Near b r) (nc : Near c s)
    (h1 : b.v * ((s⁻¹ : ℝ) : EReal) = ((r / s : ℝ) : EReal)) (h2 : b.v * inv0 c.v = ((r / s : ℝ) : EReal)) :
    b.f = 0 ∧ (b.v ≠ 0 → c.f = 0) := by
  have hb := ereal_mul_coe_cancel (inv_ne_zero hs) h1
  refine ⟨nb hb, fun g => nc (inv0_eq hs ?_)⟩
  rw [hb] at g h2
  have hr : r ≠ 0 := by intro q; exact g (by rw [q]; rfl)
  rw [mul_comm (r : EReal), div_eq_inv_mul] at h2
  exact ereal_mul_coe_cancel hr h2

theorem lower_quo {b c : Bd} {r s : ℝ} (hs : s ≠ 0) (nb : Near b r) (nc : Near c s)
    (h1 : b.v * ((s⁻¹ : ℝ) : EReal) ≤ (r : EReal) * ((s⁻¹ : ℝ) : EReal)) (h2 : b.v * inv0 c.v ≤ b.v * ((s⁻¹ : ℝ) : EReal)) :
    Above (ldiv b c) (r / s) := by
  rw [← EReal.coe_mul, ← div_eq_mul_inv] at h1
  unfold Above
  rw [ldiv_v]
  rcases lt_or_eq_of_le (h2.trans h1) with g | g
  · exact Or.inl g
  · have := closed_of_quo hs nb nc (le_antisymm h1 (by rw [← g]; exact h2)) g
    exact Or.inr ⟨g, ldiv_f this.1 this.2⟩
theorem upper_quo {b c : Bd} {r s : ℝ} (hs : s ≠ 0) (nb : Near b r) (nc : Near c s)
    (h1 : (r : EReal) * ((s⁻¹ : ℝ) : EReal) ≤ b.v * ((s⁻¹ : ℝ) : EReal)) (h2 : b.v * ((s⁻¹ : ℝ) : EReal) ≤ b.v * inv0 c.v) :
    Below (udiv b c) (r / s) := by
  rw [← EReal.coe_mul, ← div_eq_mul_inv] at h1
  unfold Below
  rw [udiv_v]
  rcases lt_or_eq_of_le (h1.trans h2) with g | g
  · exact Or.inl g
  · have := closed_of_quo hs nb nc (le_antisymm (by rw [g]; exact h2) h1) g.symm
    exact Or.inr ⟨g, udiv_f this.1 this.2⟩

theorem divV_ldiv {b : Bd} {t : ℝ} : b.divV t = ldiv b ⟨t, 0⟩ := by
  unfold Bd.divV ldiv
  simp only [Bd.closed, beq_self_eq_true, if_true]
  split_ifs with h1 h2
  · ext
    · rfl
    · simpa using h2
  · rfl
  · rfl
theorem divV_udiv {b : Bd} {t : ℝ} : b.divV t = udiv b ⟨t, 0⟩ := by
  unfold Bd.divV udiv
  simp only [Bd.closed, beq_self_eq_true, if_true]
  split_ifs with h1 h2
  · ext
    · rfl
    · simpa using h2
  · rfl
  · rfl

/-- **C127**: an interval divided by a number that is not 0. -/
theorem C127_divV_mem (x : Iv) (hx : Proper x) (t r : ℝ) (ht : t ≠ 0) (h : Mem x r) : Mem (divV x t) (r / t) := by
  have nt : Near ⟨(t : EReal), 0⟩ t := fun _ => rfl
  have hi : (unitFraction (t : EReal)) → x.int = true → ∃ z : ℤ, r / t = z := by
    rintro ⟨k, hk⟩ hi
    obtain ⟨a, ha⟩ := h.2.2 hi
    rcases hk with hk | hk
    · refine ⟨a * 2 ^ k, ?_⟩
      rw [EReal.coe_injective hk, ha]; push_cast; rw [one_div, inv_pow, div_inv_eq_mul]
    · refine ⟨-(a * 2 ^ k), ?_⟩
      rw [EReal.coe_injective hk, ha]; push_cast; rw [one_div, inv_pow, div_neg, div_inv_eq_mul]
  have key : ∀ (l u : Bd), (l.f = 0 ∨ l.f = 1) → (u.f = 0 ∨ u.f = -1) → Near l r → Near u r →
      l.v * ((t⁻¹ : ℝ) : EReal) ≤ (r : EReal) * ((t⁻¹ : ℝ) : EReal) → (r : EReal) * ((t⁻¹ : ℝ) : EReal) ≤ u.v * ((t⁻¹ : ℝ) : EReal) →
      Mem (if x.int = true ∧ unitFraction (t : EReal) then Iv.setInteger ⟨l.divV t, u.divV t, x.int⟩
        else Iv.setMaybeReal ⟨l.divV t, u.divV t, x.int⟩) (r / t) := by
    intro l u lf uf nl nu h1 h2
    have A : Above (l.divV t) (r / t) := by
      rw [divV_ldiv]; exact lower_quo ht nl nt h1 (by rw [inv0_coe ht])
    have B : Below (u.divV t) (r / t) := by
      rw [divV_udiv]; exact upper_quo ht nu nt h2 (by rw [inv0_coe ht])
    split_ifs with g
    · have ok1 : LoOk (l.divV t) := by rw [divV_ldiv]; exact ldiv_ok lf
      have ok2 : UpOk (u.divV t) := by rw [divV_udiv]; exact udiv_ok uf
      rw [C54_setInteger_mem _ ok1 ok2]
      exact ⟨A, B, hi g.2 g.1⟩
    · rw [C54_setMaybeReal_mem]; exact ⟨A, B⟩
  unfold divV
  rw [if_neg (by exact_mod_cast ht)]
  by_cases h0 : t < 0
  · have h0' : (t : EReal) < 0 := by exact_mod_cast h0
    have h0i : ((t⁻¹ : ℝ) : EReal) ≤ 0 := by exact_mod_cast (inv_lt_zero.2 h0).le
    simp only [if_pos h0']
    refine key (lset x.up) (uset x.lo) (lset_f _) (uset_f _) (near_lset (Below.near h.2.1)) (near_uset (Above.near h.1)) ?_ ?_
    · exact emul_le_right' (Below.le (b := x.up) h.2.1) h0i
    · exact emul_le_right' (Above.le (b := x.lo) h.1) h0i
  · have h0' : ¬ (t : EReal) < 0 := by exact_mod_cast h0
    have h0i : 0 ≤ ((t⁻¹ : ℝ) : EReal) := by exact_mod_cast (inv_nonneg.2 (not_lt.1 h0))
    simp only [if_neg h0']
    refine key x.lo x.up hx.lf hx.uf (Above.near h.1) (Below.near h.2.1) ?_ ?_
    · exact emul_le_right (Above.le (b := x.lo) h.1) h0i
    · exact emul_le_right (Below.le (b := x.up) h.2.1) h0i

/-- The quotient by an interval without 0. -/
theorem divNonzero_mem {x y : Iv} (hx : Proper x) (hy : Proper y) {r s : ℝ} (h1 : Mem x r) (h2 : Mem y s)
    (h0 : gtV y 0 ∨ ltV y 0 ∧ y.up.v ≠ 0) : Mem (divNonzero x y) (r / s) := by
  have a1 := Above.le h1.1
  have a2 := Below.le h1.2.1
  have b1 := Above.le h2.1
  have b2 := Below.le h2.2.1
  have na1 := Above.near h1.1
  have na2 := Below.near h1.2.1
  have nb1 := Above.near h2.1
  have nb2 := Below.near h2.2.1
  unfold divNonzero
  simp only
  rw [C54_setMaybeReal_mem]
  by_cases y1 : ltV y 0
  · rw [if_pos y1]
    have hy1 := neg0 y1 h2
    have hs := hy1.lt.ne
    have s0 : ((s⁻¹ : ℝ) : EReal) ≤ 0 := by exact_mod_cast (inv_lt_zero.2 hy1.lt).le
    have yu : y.up.v < 0 := by
      rcases h0 with g | g
      · have := (pos0 g h2).gt; linarith [hy1.lt]
      · exact lt_of_le_of_ne hy1.up g.2
    have i1 := inv0_neg_ge b1 hy1.lt
    have i2 := inv0_neg_le b2 yu
    by_cases x1 : ltV x 0
    · rw [if_pos x1]
      have hx1 := neg0 x1 h1
      have l0 : x.lo.v ≤ 0 := a1.trans (coe_nonpos' hx1.lt.le)
      exact ⟨lower_quo hs (near_lset na2) nb1 (emul_le_right' a2 s0) (emul_le_left' i1 hx1.up),
        upper_quo hs (near_uset na1) nb2 (emul_le_right' a1 s0) (emul_le_left' i2 l0)⟩
    rw [if_neg x1]
    by_cases x2 : gtV x 0
    · rw [if_pos x2]
      have hx2 := pos0 x2 h1
      have u0 : 0 ≤ x.up.v := (coe_nonneg' hx2.gt.le).trans a2
      exact ⟨lower_quo hs (near_lset na2) nb2 (emul_le_right' a2 s0) (emul_le_left i2 u0),
        upper_quo hs (near_uset na1) nb1 (emul_le_right' a1 s0) (emul_le_left i1 hx2.lo)⟩
    rw [if_neg x2]
    have hm := mix0 hx.flags x1 x2
    exact ⟨lower_quo hs (near_lset na2) nb2 (emul_le_right' a2 s0) (emul_le_left i2 hm.up),
      upper_quo hs (near_uset na1) nb2 (emul_le_right' a1 s0) (emul_le_left' i2 hm.lo)⟩
  · rw [if_neg y1]
    have y2 : gtV y 0 := by rcases h0 with g | g; exacts [g, absurd g.1 y1]
    have hy2 := pos0 y2 h2
    have hs := hy2.gt.ne'
    have s0 : 0 ≤ ((s⁻¹ : ℝ) : EReal) := by exact_mod_cast (inv_nonneg.2 hy2.gt.le)
    have i1 := inv0_pos_ge hy2.lo b1 hy2.gt
    have i2 := inv0_pos_le b2 hy2.gt
    by_cases x1 : ltV x 0
    · rw [if_pos x1]
      have hx1 := neg0 x1 h1
      have l0 : x.lo.v ≤ 0 := a1.trans (coe_nonpos' hx1.lt.le)
      exact ⟨lower_quo hs na1 nb1 (emul_le_right a1 s0) (emul_le_left' i1 l0),
        upper_quo hs na2 nb2 (emul_le_right a2 s0) (emul_le_left' i2 hx1.up)⟩
    rw [if_neg x1]
    by_cases x2 : gtV x 0
    · rw [if_pos x2]
      have hx2 := pos0 x2 h1
      have u0 : 0 ≤ x.up.v := (coe_nonneg' hx2.gt.le).trans a2
      exact ⟨lower_quo hs na1 nb2 (emul_le_right a1 s0) (emul_le_left i2 hx2.lo),
        upper_quo hs na2 nb1 (emul_le_right a2 s0) (emul_le_left i1 u0)⟩
    rw [if_neg x2]
    have hm := mix0 hx.flags x1 x2
    exact ⟨lower_quo hs na1 nb1 (emul_le_right a1 s0) (emul_le_left' i1 hm.lo),
      upper_quo hs na2 nb1 (emul_le_right a2 s0) (emul_le_left i1 hm.up)⟩

theorem neg_v_nonpos {a : EReal} (h : 0 ≤ a) : -a ≤ 0 := by
  rw [EReal.neg_le]; simpa using h
theorem neg_v_nonneg {a : EReal} (h : a ≤ 0) : 0 ≤ -a := EReal.neg_nonneg.2 h

/-- The quotient by an INTEGER interval whose greatest or least member is 0. -/
theorem divIntZero_mem {x y : Iv} (hx : Proper x) (hi : y.int = true) {r s : ℝ} (h1 : Mem x r) (h2 : Mem y s) (hs : s ≠ 0)
    (h0 : leV y 0 ∨ geV y 0) : Mem (divIntZero x y) (r / s) := by
  have a1 := Above.le h1.1
  have a2 := Below.le h1.2.1
  have b1 := Above.le h2.1
  have b2 := Below.le h2.2.1
  have na1 := Above.near h1.1
  have na2 := Below.near h1.2.1
  have nb1 := Above.near h2.1
  have nb2 := Below.near h2.2.1
  obtain ⟨z, hz⟩ := h2.2.2 hi
  have n1 : Above ((lset x.up).neg) (-r) := (lset_above _ _).2 h1.2.1
  have n2 : Below ((uset x.lo).neg) (-r) := (uset_below _ _).2 h1.1
  unfold divIntZero
  simp only
  rw [C54_setMaybeReal_mem]
  by_cases y1 : leV y 0
  · rw [if_pos y1]
    have s1 : s ≤ -1 := by
      have : s ≤ 0 := by
        have : (s : EReal) ≤ 0 := b2.trans (not_lt.1 y1)
        exact_mod_cast this
      have hz0 : z ≤ -1 := by
        have g1 : z ≤ 0 := by rw [hz] at this; exact_mod_cast this
        have g2 : z ≠ 0 := by intro q; exact hs (by rw [hz, q]; simp)
        omega
      rw [hz]; exact_mod_cast hz0
    have sn : s < 0 := by linarith
    have s0 : ((s⁻¹ : ℝ) : EReal) ≤ 0 := by exact_mod_cast (inv_lt_zero.2 sn).le
    have i1 := inv0_neg_ge b1 sn
    have up : r ≤ 0 → r / s ≤ -r := by
      intro g
      rw [div_le_iff_of_neg sn]; nlinarith
    have dn : 0 ≤ r → -r ≤ r / s := by
      intro g
      rw [le_div_iff_of_neg sn]; nlinarith
    by_cases x1 : ltV x 0
    · rw [if_pos x1]
      have hx1 := neg0 x1 h1
      exact ⟨lower_quo hs (near_lset na2) nb1 (emul_le_right' a2 s0) (emul_le_left' i1 hx1.up), below_mono n2 (up hx1.lt.le)⟩
    rw [if_neg x1]
    by_cases x2 : gtV x 0
    · rw [if_pos x2]
      have hx2 := pos0 x2 h1
      exact ⟨above_mono n1 (dn hx2.gt.le), upper_quo hs (near_uset na1) nb1 (emul_le_right' a1 s0) (emul_le_left i1 hx2.lo)⟩
    rw [if_neg x2]
    have hm := mix0 hx.flags x1 x2
    refine ⟨?_, ?_⟩
    · rcases le_or_gt 0 r with g | g
      · exact above_mono n1 (dn g)
      · exact above_of_lt (neg_v_nonpos hm.up) (div_pos_of_neg_of_neg g sn)
    · rcases le_or_gt r 0 with g | g
      · exact below_mono n2 (up g)
      · exact below_of_lt (neg_v_nonneg hm.lo) (div_neg_of_pos_of_neg g sn)
  · have y2 : geV y 0 := by rcases h0 with g | g; exacts [absurd g y1, g]
    rw [if_neg y1, if_pos y2]
    have s1 : 1 ≤ s := by
      have : 0 ≤ s := by
        have : 0 ≤ (s : EReal) := (not_lt.1 y2).trans b1
        exact_mod_cast this
      have hz0 : 1 ≤ z := by
        have g1 : 0 ≤ z := by rw [hz] at this; exact_mod_cast this
        have g2 : z ≠ 0 := by intro q; exact hs (by rw [hz, q]; simp)
        omega
      rw [hz]; exact_mod_cast hz0
    have sp : 0 < s := by linarith
    have s0 : 0 ≤ ((s⁻¹ : ℝ) : EReal) := by exact_mod_cast (inv_nonneg.2 sp.le)
    have i2 := inv0_pos_le b2 sp
    have up : 0 ≤ r → r / s ≤ r := by
      intro g
      rw [div_le_iff₀ sp]; nlinarith
    have dn : r ≤ 0 → r ≤ r / s := by
      intro g
      rw [le_div_iff₀ sp]; nlinarith
    by_cases x1 : ltV x 0
    · rw [if_pos x1]
      have hx1 := neg0 x1 h1
      exact ⟨above_mono h1.1 (dn hx1.lt.le), upper_quo hs na2 nb2 (emul_le_right a2 s0) (emul_le_left' i2 hx1.up)⟩
    rw [if_neg x1]
    by_cases x2 : gtV x 0
    · rw [if_pos x2]
      have hx2 := pos0 x2 h1
      exact ⟨lower_quo hs na1 nb2 (emul_le_right a1 s0) (emul_le_left i2 hx2.lo), below_mono h1.2.1 (up hx2.gt.le)⟩
    rw [if_neg x2]
    have hm := mix0 hx.flags x1 x2
    refine ⟨?_, ?_⟩
    · rcases le_or_gt r 0 with g | g
      · exact above_mono h1.1 (dn g)
      · exact above_of_lt hm.lo (div_pos g sp)
    · rcases le_or_gt 0 r with g | g
      · exact below_mono h1.2.1 (up g)
      · exact below_of_lt hm.up (div_neg_of_neg_of_pos g sp)

/-- The divisors for which the quotient is right: no negative number; or the reals of an interval with 0; or all below a negative number;
or 0 and smaller numbers; or one number. -/
def GoodDivisor (y : Iv) : Prop :=
  (∀ s, Mem y s → 0 ≤ s) ∨ (y.int = false ∧ Mem y 0) ∨ (∃ m : ℝ, m < 0 ∧ ∀ s, Mem y s → s ≤ m) ∨ (Mem y 0 ∧ ∀ s, Mem y s → s ≤ 0) ∨
  ∃ t, ∀ s, Mem y s ↔ s = t

theorem up_le_of {y : Iv} (hy : Proper y) {m : ℝ} (h : ∀ s, Mem y s → s ≤ m) : y.up.v ≤ (m : EReal) := by
  by_contra g
  push Not at g
  obtain ⟨s, hs, hm⟩ := hy.up_near m g
  linarith [h s hs]

theorem lo_ge_of {y : Iv} (hy : Proper y) {m : ℝ} (h : ∀ s, Mem y s → m ≤ s) : (m : EReal) ≤ y.lo.v := by
  by_contra g
  push Not at g
  obtain ⟨s, hs, hm⟩ := hy.lo_near m g
  linarith [h s hs]

theorem gtV_of {y : Iv} (hy : Proper y) {m : ℝ} (h : ∀ s, Mem y s → m < s) : gtV y m := by
  rcases (lo_ge_of hy fun s g => (h s g).le).lt_or_eq with q | q
  · exact Or.inl q
  · refine Or.inr ⟨q.symm, ?_⟩
    rcases hy.lf with f | f
    · exact absurd (h m (hy.lo_mem m q.symm f)) (lt_irrefl _)
    · rw [f]; norm_num

theorem ltV_of {y : Iv} (hy : Proper y) {m : ℝ} (h : ∀ s, Mem y s → s < m) : ltV y m := by
  rcases (up_le_of hy fun s g => (h s g).le).lt_or_eq with q | q
  · exact Or.inl q
  · refine Or.inr ⟨q, ?_⟩
    rcases hy.uf with f | f
    · exact absurd (h m (hy.up_mem m q f)) (lt_irrefl _)
    · rw [f]; norm_num

/-- **C127**: the quotient of two intervals contains the quotients of their members, for the divisors of `GoodDivisor`. -/
theorem C127_div_mem (x y : Iv) (hx : Proper x) (hy : Proper y) (hg : GoodDivisor y) (r s : ℝ) (h1 : Mem x r) (h2 : Mem y s)
    (hs : s ≠ 0) : Mem (div x y) (r / s) := by
  unfold div
  by_cases hp : y.onePoint
  · rw [if_pos hp]
    obtain ⟨t, ht, hm⟩ := onePoint_mem hy hp
    have := (hm s).1 h2
    subst this
    rw [ht]
    exact C127_divV_mem x hx s r hs h1
  rw [if_neg hp]
  have h0 : hasV y 0 ↔ Mem y 0 := by
    have := C54_hasV_iff y (Or.inr hy) 0
    simpa using this
  by_cases hz : hasV y 0
  · rw [if_pos hz]
    have mz := h0.1 hz
    cases hi : y.int
    · rw [if_neg (by simp)]
      refine ⟨Or.inl (EReal.bot_lt_coe _), Or.inl (EReal.coe_lt_top _), ?_⟩
      simp [Iv.full]
    · rw [if_pos rfl]
      refine divIntZero_mem hx hi h1 h2 hs ?_
      rcases hg with g | g | ⟨m, m0, g⟩ | g | ⟨t, g⟩
      · right; exact not_lt.2 (by simpa using lo_ge_of hy g)
      · rw [hi] at g; simp at g
      · exact absurd (g 0 mz) (by linarith)
      · left; exact not_lt.2 (by simpa using up_le_of hy g.2)
      · have t0 := (g 0).1 mz
        exact absurd ((g s).1 h2) (by rw [← t0]; exact hs)
  · rw [if_neg hz]
    have nz : ¬ Mem y 0 := fun q => hz (h0.2 q)
    have npos : (∀ s, Mem y s → 0 ≤ s) → gtV y 0 := by
      intro g
      have := gtV_of hy (m := 0) fun u hu => lt_of_le_of_ne (g u hu) (by rintro rfl; exact nz hu)
      simpa using this
    have nneg : (∃ m : ℝ, m < 0 ∧ ∀ s, Mem y s → s ≤ m) → ltV y 0 ∧ y.up.v ≠ 0 := by
      rintro ⟨m, m0, g⟩
      have q : y.up.v < 0 := lt_of_le_of_lt (up_le_of hy g) (by exact_mod_cast m0)
      exact ⟨Or.inl q, q.ne⟩
    refine divNonzero_mem hx hy h1 h2 ?_
    rcases hg with g | g | g | g | ⟨t, g⟩
    · exact Or.inl (npos g)
    · exact absurd g.2 nz
    · exact Or.inr (nneg g)
    · exact absurd g.1 nz
    · rcases lt_or_ge t 0 with q | q
      · exact Or.inr (nneg ⟨t, q, fun u hu => ((g u).1 hu).le⟩)
      · exact Or.inl (npos fun u hu => by rw [(g u).1 hu]; exact q)

/-- **C127**: the integer quotient contains the truncated quotients. -/
theorem C127_idiv_mem (x y : Iv) (hx : Proper x) (hy : Proper y) (hg : GoodDivisor y) (r s : ℝ) (h1 : Mem x r) (h2 : Mem y s)
    (hs : s ≠ 0) : Mem (idiv x y) (trunc (r / s)) :=
  C54_trunc_mem _ _ (C127_div_mem x y hx hy hg r s h1 h2 hs)

theorem lset_flag (b : Bd) : (lset b).f = 0 ∨ (lset b).f = 1 := lset_f b

theorem ldiv_flag {b c : Bd} (hb : b.f = 0 ∨ b.f = 1) : (ldiv b c).f = 0 ∨ (ldiv b c).f = 1 := by
  unfold ldiv; split_ifs <;> simp_all

theorem udiv_flag {b c : Bd} (hb : b.f = 0 ∨ b.f = -1) : (udiv b c).f = 0 ∨ (udiv b c).f = -1 := by
  unfold udiv; split_ifs <;> simp_all

theorem divV_flag (b : Bd) (c : EReal) : (b.divV c).f = b.f := by
  unfold Bd.divV; split_ifs <;> rfl

theorem lceil_flag {b : Bd} (hb : b.f = 0 ∨ b.f = 1) : (lceil b).f = 0 ∨ (lceil b).f = 1 := by
  unfold lceil; split <;> (try split_ifs) <;> simp_all

theorem ufloor_flag {b : Bd} (hb : b.f = 0 ∨ b.f = -1) : (ufloor b).f = 0 ∨ (ufloor b).f = -1 := by
  unfold ufloor; split <;> (try split_ifs) <;> simp_all

theorem flags_setInteger {z : Iv} (hz : Flags z) {r : ℝ} (h : Mem z.setInteger r) : Flags z.setInteger := by
  unfold Iv.setInteger at h ⊢
  split_ifs at h ⊢ with g
  · exact absurd h.1 (by simp [Iv.empty, Bd.max])
  · exact ⟨lceil_flag hz.lf, ufloor_flag hz.uf⟩

theorem flags_setMaybeReal {z : Iv} (hz : Flags z) : Flags z.setMaybeReal := ⟨hz.lf, hz.uf⟩

theorem flags_intA {z : Iv} (hz : Flags z) : Flags (intA z) := by
  constructor
  · show (lint z.lo).f = 0 ∨ (lint z.lo).f = 1
    unfold lint
    split_ifs
    · unfold lfloor; split_ifs
      · exact hz.lf
      · exact Or.inl rfl
    · exact lceil_flag hz.lf
  · show (uint z.up).f = 0 ∨ (uint z.up).f = -1
    unfold uint
    split_ifs
    · exact ufloor_flag hz.uf
    · unfold uceil; split_ifs
      · exact hz.uf
      · exact Or.inl rfl

theorem flags_div {x y : Iv} (hx : Flags x) {r : ℝ} (h : Mem (div x y) r) : Flags (div x y) := by
  unfold div at h ⊢
  split_ifs at h ⊢ with h1 h2 h3
  · unfold divV at h ⊢
    split_ifs at h ⊢ with g1 g2 g3
    · exact absurd h.1 (by simp [Iv.empty, Bd.max])
    all_goals dsimp only at h ⊢
    all_goals first
      | exact flags_setInteger ⟨by rw [divV_flag]; exact lset_f _, by rw [divV_flag]; exact uset_f _⟩ h
      | exact flags_setMaybeReal ⟨by rw [divV_flag]; exact lset_f _, by rw [divV_flag]; exact uset_f _⟩
      | exact flags_setInteger ⟨by rw [divV_flag]; exact hx.lf, by rw [divV_flag]; exact hx.uf⟩ h
      | exact flags_setMaybeReal ⟨by rw [divV_flag]; exact hx.lf, by rw [divV_flag]; exact hx.uf⟩
  · unfold divIntZero
    refine flags_setMaybeReal ?_
    have n1 : (lset x.up).neg.f = 0 ∨ (lset x.up).neg.f = 1 := lset_f _
    have n2 : (uset x.lo).neg.f = 0 ∨ (uset x.lo).neg.f = -1 := uset_f _
    split_ifs
    all_goals first
      | exact hx
      | exact ⟨ldiv_flag (lset_f _), n2⟩
      | exact ⟨n1, udiv_flag (uset_f _)⟩
      | exact ⟨n1, n2⟩
      | exact ⟨hx.lf, udiv_flag hx.uf⟩
      | exact ⟨ldiv_flag hx.lf, hx.uf⟩
      | (constructor
         · dsimp only
           split_ifs
           exacts [n1, hx.lf]
         · dsimp only
           split_ifs
           exacts [n2, hx.uf])
  · exact ⟨Or.inr rfl, Or.inr rfl⟩
  · unfold divNonzero
    refine flags_setMaybeReal ?_
    split_ifs
    all_goals first
      | exact ⟨ldiv_flag (lset_f _), udiv_flag (uset_f _)⟩
      | exact ⟨ldiv_flag hx.lf, udiv_flag hx.uf⟩

/-- **C127**: the remainder contains every remainder `r - s * trunc (r / s)`. -/
theorem C127_imod_mem (x y : Iv) (hx : Proper x) (hy : Proper y) (hg : GoodDivisor y) (r s : ℝ) (h1 : Mem x r) (h2 : Mem y s)
    (hs : s ≠ 0) : Mem (imod x y) (r - trunc (r / s) * s) :=
  sub_any _ _ hx _ _ h1 (mul_flags _ _ (flags_intA (flags_div hx.flags (C127_div_mem x y hx hy hg r s h1 h2 hs))) hy.flags _ _
    (C127_idiv_mem x y hx hy hg r s h1 h2 hs) h2)

/-- **C127**: the hypotheses are met by the reals from -6 to -4 over the integers from 0 to 2, which give -3 / 2 among others. -/
theorem C127_nonvacuous : Proper (cl (-6) (-4) false) ∧ Proper (cl (0 : ℤ) (2 : ℤ) true) ∧ GoodDivisor (cl (0 : ℤ) (2 : ℤ) true) ∧
    Mem (cl (-6) (-4) false) (-5) ∧ Mem (cl (0 : ℤ) (2 : ℤ) true) 2 ∧ Mem (div (cl (-6) (-4) false) (cl (0 : ℤ) (2 : ℤ) true)) (-5 / 2) := by
  have p1 := cl_proper_real (-6) (-4) (by norm_num)
  have p2 := cl_proper_int 0 2 (by norm_num)
  have g : GoodDivisor (cl (0 : ℤ) (2 : ℤ) true) := Or.inl fun s h => by
    have := ((cl_mem _ _ _ _).1 h).1
    simpa using this
  have m1 : Mem (cl (-6) (-4) false) (-5) := by rw [cl_mem]; norm_num
  have m2 : Mem (cl (0 : ℤ) (2 : ℤ) true) 2 := by rw [cl_mem]; exact ⟨by norm_num, by norm_num, fun _ => ⟨2, by norm_num⟩⟩
  exact ⟨p1, p2, g, m1, m2, C127_div_mem _ _ p1 p2 g _ _ m1 m2 (by norm_num)⟩

/-! ## Where the quotient is wrong -/

theorem quo_coe {a b : ℝ} (hb : b ≠ 0) : quo a b = ((a / b : ℝ) : EReal) := by
  unfold quo
  rw [if_neg (by exact_mod_cast hb)]
  exact (EReal.coe_div a b).symm

/-- **C126** refuted: the reals from -6 to -4 over the integers from -1 to 1: -6 / -1 = 6, but the answer ends at -4. -/
theorem C126_straddling_refuted :
    ∃ (x y : Iv) (r s : ℝ), Proper x ∧ Proper y ∧ Mem x r ∧ Mem y s ∧ s ≠ 0 ∧ ¬ Mem (div x y) (r / s) := by
  refine ⟨cl (-6) (-4) false, cl (-1 : ℤ) (1 : ℤ) true, -6, -1, cl_proper_real _ _ (by norm_num), cl_proper_int (-1) 1 (by norm_num),
    ?_, ?_, by norm_num, ?_⟩
  · rw [cl_mem]; norm_num
  · rw [cl_mem]; exact ⟨by norm_num, by norm_num, fun _ => ⟨-1, by norm_num⟩⟩
  · have hp : ¬ (cl (-1 : ℤ) (1 : ℤ) true).onePoint := by
      intro h
      have := EReal.coe_injective (congrArg Bd.v h)
      norm_num at this
    have h0 : hasV (cl (-1 : ℤ) (1 : ℤ) true) 0 := by
      have := (C54_hasV_iff _ (Or.inr (cl_proper_int (-1) 1 (by norm_num))) 0).2
        ((cl_mem _ _ _ _).2 ⟨by norm_num, by norm_num, fun _ => ⟨0, by norm_num⟩⟩)
      simpa using this
    have y1 : ¬ leV (cl (-1 : ℤ) (1 : ℤ) true) 0 := by
      have : (0 : EReal) < ((1 : ℤ) : ℝ) := by norm_num
      exact not_not.2 this
    have y2 : ¬ geV (cl (-1 : ℤ) (1 : ℤ) true) 0 := by
      have : (((-1 : ℤ) : ℝ) : EReal) < 0 := by exact_mod_cast (by norm_num : ((-1 : ℤ) : ℝ) < 0)
      exact not_not.2 this
    have x1 : ltV (cl (-6) (-4) false) 0 := by
      left; show ((-4 : ℝ) : EReal) < 0; exact_mod_cast (by norm_num : (-4 : ℝ) < 0)
    unfold div divIntZero
    simp only
    rw [if_neg hp, if_pos h0, if_pos (show (cl (-1 : ℤ) (1 : ℤ) true).int = true from rfl), if_neg y1, if_neg y2, if_pos x1, C54_setMaybeReal_mem]
    rintro ⟨-, b⟩
    have b' := Below.le b
    have e : (udiv (cl (-6) (-4) false).up (cl (-1 : ℤ) (1 : ℤ) true).up).v = ((-4 : ℝ) : EReal) := by
      have h4 : ((-4 : ℝ) : EReal) ≠ 0 := by exact_mod_cast (by norm_num : (-4 : ℝ) ≠ 0)
      unfold udiv cl
      simp only
      rw [if_pos h4, quo_coe (by norm_num)]
      norm_num
    rw [e] at b'
    have := EReal.coe_le_coe_iff.1 b'
    norm_num at this

/-- The reals from -1 to 0 without 0. -/
noncomputable def openZero : Iv := ⟨⟨((-1 : ℝ) : EReal), 0⟩, ⟨((0 : ℝ) : EReal), -1⟩, false⟩

theorem openZero_mem (r : ℝ) : Mem openZero r ↔ -1 ≤ r ∧ r < 0 := by
  rw [mem_def]
  unfold openZero
  rw [above_coe (s := -1) rfl, below_coe (s := 0) rfl]
  simp [le_iff_lt_or_eq]

theorem openZero_proper : Proper openZero := by
  refine ⟨Or.inl rfl, Or.inr rfl, ?_, ?_, EReal.coe_ne_top _, EReal.coe_ne_bot _, ?_, ?_, ?_, ?_⟩
  · intro g; exact absurd g (EReal.coe_ne_bot _)
  · intro g; exact absurd g (EReal.coe_ne_top _)
  · rw [Bd.le_iff]; left; exact EReal.coe_lt_coe_iff.2 (by norm_num)
  · intro g; cases g
  · intro g; cases g
  · rintro - ⟨g, -⟩
    have := EReal.coe_injective (congrArg Bd.v g)
    norm_num at this

/-- **C126** refuted: the reals from -2 to -1 over the negative reals from -1: -1 / -1 = 1, but the upper end of the answer is -2 / 0 = -∞. -/
theorem C126_open_zero_refuted :
    ∃ (x y : Iv) (r s : ℝ), Proper x ∧ Proper y ∧ y.int = false ∧ Mem x r ∧ Mem y s ∧ (∀ t, Mem y t → t < 0) ∧ ¬ Mem (div x y) (r / s) := by
  refine ⟨cl (-2) (-1) false, openZero, -1, -1, cl_proper_real _ _ (by norm_num), openZero_proper, rfl, ?_, ?_, ?_, ?_⟩
  · rw [cl_mem]; norm_num
  · rw [openZero_mem]; norm_num
  · intro t h; exact ((openZero_mem t).1 h).2
  · have hp : ¬ openZero.onePoint := by
      intro h
      have := EReal.coe_injective (congrArg Bd.v h)
      norm_num at this
    have h0 : ¬ hasV openZero 0 := by
      intro h
      have := (C54_hasV_iff _ (Or.inr openZero_proper) 0).1 (by simpa using h)
      exact absurd ((openZero_mem 0).1 this).2 (lt_irrefl _)
    have y1 : ltV openZero 0 := Or.inr ⟨rfl, by simp [openZero]⟩
    have x1 : ltV (cl (-2) (-1) false) 0 := by
      left; show ((-1 : ℝ) : EReal) < 0; exact_mod_cast (by norm_num : (-1 : ℝ) < 0)
    unfold div divNonzero
    simp only
    rw [if_neg hp, if_neg h0, if_pos y1, if_pos x1, C54_setMaybeReal_mem]
    rintro ⟨-, b⟩
    have b' := Below.le b
    have e : (udiv (uset (cl (-2) (-1) false).lo) openZero.up).v = ⊥ := by
      have h4 : ((-2 : ℝ) : EReal) ≠ 0 := by exact_mod_cast (by norm_num : (-2 : ℝ) ≠ 0)
      have h5 : ¬ (0 : EReal) < ((-2 : ℝ) : EReal) := by
        have : ((-2 : ℝ) : EReal) ≤ 0 := by exact_mod_cast (by norm_num : (-2 : ℝ) ≤ 0)
        exact not_lt.2 this
      unfold udiv uset ubd cl openZero quo
      simp only
      rw [if_pos h4]
      simp only [EReal.coe_zero, if_true, if_neg h5]
    rw [e] at b'
    exact absurd (le_bot_iff.1 b') (EReal.coe_ne_bot _)

end Purrs.Interval
