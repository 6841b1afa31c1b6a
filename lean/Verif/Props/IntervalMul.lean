import Verif.Model.IntervalMore
import Verif.Props.IntervalArith

/-!
# C125: products of intervals
-/

namespace Purrs.Interval

open Classical

/-- If a number is on a boundary, the boundary is closed. -/
def Near (b : Bd) (r : ℝ) : Prop := b.v = (r : EReal) → b.f = 0

theorem Above.le {b : Bd} {r : ℝ} (h : Above b r) : b.v ≤ (r : EReal) := by rcases h with q | q; exacts [q.le, q.1.le]
theorem Below.le {b : Bd} {r : ℝ} (h : Below b r) : (r : EReal) ≤ b.v := by rcases h with q | q; exacts [q.le, q.1.le]
theorem Above.near {b : Bd} {r : ℝ} (h : Above b r) : Near b r := by
  intro g; rcases h with q | q
  · exact absurd g q.ne
  · exact q.2
theorem Below.near {b : Bd} {r : ℝ} (h : Below b r) : Near b r := by
  intro g; rcases h with q | q
  · exact absurd g.symm q.ne
  · exact q.2
theorem near_lset {b : Bd} {r : ℝ} (h : Near b r) : Near (lset b) r := by
  intro g
  have := h g
  simp [lset, lbd, Bd.closed, this]
theorem near_uset {b : Bd} {r : ℝ} (h : Near b r) : Near (uset b) r := by
  intro g
  have := h g
  simp [uset, ubd, Bd.closed, this]

theorem lmul_v (b c : Bd) : (lmul b c).v = b.v * c.v := by
  unfold lmul
  by_cases h1 : c.v = 0
  · rw [if_pos h1]; simp [h1]
  · rw [if_neg h1]
    by_cases h2 : b.v = 0
    · rw [if_neg (not_not.2 h2)]; simp [h2]
    · rw [if_pos h2]
theorem umul_v (b c : Bd) : (umul b c).v = b.v * c.v := by
  unfold umul
  by_cases h1 : c.v = 0
  · rw [if_pos h1]; simp [h1]
  · rw [if_neg h1]
    by_cases h2 : b.v = 0
    · rw [if_neg (not_not.2 h2)]; simp [h2]
    · rw [if_pos h2]

/-- When the product of two boundaries is closed. -/
def ClosedMul (b c : Bd) : Prop := if c.v = 0 then b.f = 0 ∨ c.f = 0 else if b.v = 0 then b.f = 0 else b.f = 0 ∧ c.f = 0

theorem lmul_f {b c : Bd} (h : ClosedMul b c) : (lmul b c).f = 0 := by
  unfold ClosedMul at h
  unfold lmul
  split_ifs with h1 h2 h3 h4 h5
  · rfl
  · rw [if_pos h1] at h; rw [closed_iff] at h2; simpa [h2] using h
  · rfl
  · rw [if_neg h1, if_neg h3] at h; rw [closed_iff] at h5; exact absurd h.2 h5
  · rw [if_neg h1, if_neg h3] at h; exact h.1
  · push Not at h3; rw [if_neg h1, if_pos h3] at h; exact h
theorem umul_f {b c : Bd} (h : ClosedMul b c) : (umul b c).f = 0 := by
  unfold ClosedMul at h
  unfold umul
  split_ifs with h1 h2 h3 h4 h5
  · rfl
  · rw [if_pos h1] at h; rw [closed_iff] at h2; simpa [h2] using h
  · rfl
  · rw [if_neg h1, if_neg h3] at h; rw [closed_iff] at h5; exact absurd h.2 h5
  · rw [if_neg h1, if_neg h3] at h; exact h.1
  · push Not at h3; rw [if_neg h1, if_pos h3] at h; exact h

theorem ereal_mul_coe_cancel {a : EReal} {r s : ℝ} (hs : s ≠ 0) (h : a * (s : EReal) = ((r * s : ℝ) : EReal)) : a = r := by
  induction a using EReal.rec with
  | bot =>
    rcases lt_or_gt_of_ne hs with g | g
    · rw [EReal.bot_mul_coe_of_neg g] at h; exact absurd h.symm (EReal.coe_ne_top _)
    · rw [EReal.bot_mul_coe_of_pos g] at h; exact absurd h.symm (EReal.coe_ne_bot _)
  | top =>
    rcases lt_or_gt_of_ne hs with g | g
    · rw [EReal.top_mul_coe_of_neg g] at h; exact absurd h.symm (EReal.coe_ne_bot _)
    · rw [EReal.top_mul_coe_of_pos g] at h; exact absurd h.symm (EReal.coe_ne_top _)
  | coe a =>
    rw [← EReal.coe_mul] at h
    have := EReal.coe_injective h
    rw [mul_left_inj' hs] at this
    rw [this]

/-- The product of the boundaries is reached along `r s`, `β s`, `β γ` only if they are closed. -/
theorem closed_of_eq {b c : Bd} {r s : ℝ} (nb : Near b r) (nc : Near c s) (h1 : b.v * (s : EReal) = ((r * s : ℝ) : EReal))
    (h2 : b.v * c.v = ((r * s : ℝ) : EReal)) (side : s = 0 → b.v = 0 → b.f = 0) : ClosedMul b c := by
  unfold ClosedMul
  by_cases hs : s = 0
  · subst hs
    simp only [mul_zero, EReal.coe_zero] at h2
    rcases mul_eq_zero.1 h2 with g | g
    · split_ifs
      · exact Or.inl (side rfl g)
      · exact side rfl g
    · rw [if_pos g]; right; exact nc (by rw [g]; rfl)
  · have hb := ereal_mul_coe_cancel hs h1
    have bf := nb hb
    split_ifs with g1 g2
    · exact Or.inl bf
    · exact bf
    · refine ⟨bf, nc ?_⟩
      rw [hb] at g2 h2
      have hr : r ≠ 0 := by intro q; exact g2 (by rw [q]; rfl)
      rw [mul_comm (r : EReal), mul_comm r s] at h2
      exact ereal_mul_coe_cancel hr h2

theorem lower_corner {b c : Bd} {r s : ℝ} (nb : Near b r) (nc : Near c s) (h1 : b.v * (s : EReal) ≤ ((r * s : ℝ) : EReal))
    (h2 : b.v * c.v ≤ b.v * (s : EReal)) (side : s = 0 → b.v = 0 → b.f = 0) : Above (lmul b c) (r * s) := by
  unfold Above
  rw [lmul_v]
  rcases lt_or_eq_of_le (h2.trans h1) with g | g
  · exact Or.inl g
  · right
    exact ⟨g, lmul_f (closed_of_eq nb nc (le_antisymm h1 (by rw [← g]; exact h2)) g side)⟩

theorem upper_corner {b c : Bd} {r s : ℝ} (nb : Near b r) (nc : Near c s) (h1 : ((r * s : ℝ) : EReal) ≤ b.v * (s : EReal))
    (h2 : b.v * (s : EReal) ≤ b.v * c.v) (side : s = 0 → b.v = 0 → b.f = 0) : Below (umul b c) (r * s) := by
  unfold Below
  rw [umul_v]
  rcases lt_or_eq_of_le (h1.trans h2) with g | g
  · exact Or.inl g
  · right
    exact ⟨g, umul_f (closed_of_eq nb nc (le_antisymm (by rw [g]; exact h2) h1) g.symm side)⟩

theorem emul_le_right {a b c : EReal} (h : a ≤ b) (hc : 0 ≤ c) : a * c ≤ b * c := mul_le_mul_of_nonneg_right h hc
theorem emul_le_right' {a b c : EReal} (h : a ≤ b) (hc : c ≤ 0) : b * c ≤ a * c := by
  have := mul_le_mul_of_nonneg_right h (EReal.neg_nonneg.2 hc)
  rw [mul_neg, mul_neg, EReal.neg_le_neg_iff] at this
  exact this
theorem emul_le_left {a b c : EReal} (h : a ≤ b) (hc : 0 ≤ c) : c * a ≤ c * b := mul_le_mul_of_nonneg_left h hc
theorem emul_le_left' {a b c : EReal} (h : a ≤ b) (hc : c ≤ 0) : c * b ≤ c * a := by
  rw [mul_comm c, mul_comm c]; exact emul_le_right' h hc

theorem lmul_ok {b c : Bd} (hb : b.f = 0 ∨ b.f = 1) : LoOk (lmul b c) := by
  unfold LoOk lmul
  split_ifs <;> rcases hb with h | h <;> simp [h]
theorem umul_ok {b c : Bd} (hb : b.f = 0 ∨ b.f = -1) : UpOk (umul b c) := by
  unfold UpOk umul
  split_ifs <;> rcases hb with h | h <;> simp [h]
theorem lset_f (b : Bd) : (lset b).f = 0 ∨ (lset b).f = 1 := by unfold lset lbd; cases b.closed <;> simp
theorem uset_f (b : Bd) : (uset b).f = 0 ∨ (uset b).f = -1 := by unfold uset ubd; cases b.closed <;> simp

/-! ## The signs -/

structure Neg0 (x : Iv) (r : ℝ) : Prop where
  up : x.up.v ≤ 0
  lt : r < 0
structure Pos0 (x : Iv) (r : ℝ) : Prop where
  lo : 0 ≤ x.lo.v
  gt : 0 < r
structure Mix0 (x : Iv) : Prop where
  lo : x.lo.v ≤ 0
  lof : x.lo.v = 0 → x.lo.f = 0
  up : 0 ≤ x.up.v
  upf : x.up.v = 0 → x.up.f = 0

theorem neg0 {x : Iv} {r : ℝ} (h : ltV x 0) (hr : Mem x r) : Neg0 x r := by
  refine ⟨?_, (C54_value_comparisons x 0).1 (by simpa using h) r hr⟩
  rcases h with q | q; exacts [q.le, q.1.le]
theorem pos0 {x : Iv} {r : ℝ} (h : gtV x 0) (hr : Mem x r) : Pos0 x r := by
  refine ⟨?_, (C54_value_comparisons x 0).2.1 (by simpa using h) r hr⟩
  rcases h with q | q; exacts [q.le, q.1.ge]
/-- The flags of a lower and of an upper boundary. -/
structure Flags (x : Iv) : Prop where
  lf : x.lo.f = 0 ∨ x.lo.f = 1
  uf : x.up.f = 0 ∨ x.up.f = -1

theorem Proper.flags {x : Iv} (h : Proper x) : Flags x := ⟨h.lf, h.uf⟩

/-- The number of an interval of one point. -/
theorem onePoint_val {x : Iv} (h : x.onePoint) {s : ℝ} (hm : Mem x s) : x.lo.v = (s : EReal) := by
  have h1 : x.lo.v ≤ (s : EReal) := by rcases hm.1 with q | q; exacts [q.le, q.1.le]
  have h2 : (s : EReal) ≤ x.up.v := by rcases hm.2.1 with q | q; exacts [q.le, q.1.le]
  rw [← show x.lo = x.up from h] at h2
  exact le_antisymm h1 h2

theorem mix0 {x : Iv} (hx : Flags x) (h1 : ¬ ltV x 0) (h2 : ¬ gtV x 0) : Mix0 x := by
  unfold ltV Bd.ltV at h1
  unfold gtV Bd.gtV at h2
  push Not at h1 h2
  refine ⟨h2.1, fun g => ?_, h1.1, fun g => ?_⟩
  · have := h2.2 g; rcases hx.lf with q | q <;> omega
  · have := h1.2 g; rcases hx.uf with q | q <;> omega

theorem coe_nonneg' {s : ℝ} (h : 0 ≤ s) : (0 : EReal) ≤ (s : EReal) := by exact_mod_cast h
theorem coe_nonpos' {s : ℝ} (h : s ≤ 0) : (s : EReal) ≤ (0 : EReal) := by exact_mod_cast h

theorem ne_side {s : ℝ} {P : Prop} (h : s ≠ 0) : s = 0 → P := fun g => absurd g h

theorem above_of_lt {b : Bd} {t : ℝ} (h1 : b.v ≤ 0) (h2 : 0 < t) : Above b t :=
  Or.inl (lt_of_le_of_lt h1 (by exact_mod_cast h2))
theorem below_of_lt {b : Bd} {t : ℝ} (h1 : 0 ≤ b.v) (h2 : t < 0) : Below b t :=
  Or.inl (lt_of_lt_of_le (by exact_mod_cast h2) h1)

theorem mul_finish {x y z : Iv} {r s : ℝ} (hl : LoOk z.lo) (hu : UpOk z.up) (h1 : Mem x r) (h2 : Mem y s) (A : Above z.lo (r * s))
    (B : Below z.up (r * s)) : Mem (if x.int = false ∨ y.int = false then z.setMaybeReal else z.setInteger) (r * s) := by
  split_ifs with g
  · rw [C54_setMaybeReal_mem]; exact ⟨A, B⟩
  · push Not at g
    rw [C54_setInteger_mem _ hl hu]
    obtain ⟨a, ha⟩ := h1.2.2 (by simpa using g.1)
    obtain ⟨b, hb⟩ := h2.2.2 (by simpa using g.2)
    exact ⟨A, B, a * b, by push_cast; rw [ha, hb]⟩

theorem mulV_lmul {b : Bd} {t : ℝ} : b.mulV t = lmul b ⟨t, 0⟩ := by
  unfold Bd.mulV lmul
  simp only [Bd.closed, beq_self_eq_true, if_true]
  split_ifs with h1 h2 h3
  · rfl
  · ext
    · rfl
    · simpa using h3
  · rfl
  · rfl
theorem mulV_umul {b : Bd} {t : ℝ} : b.mulV t = umul b ⟨t, 0⟩ := by
  unfold Bd.mulV umul
  simp only [Bd.closed, beq_self_eq_true, if_true]
  split_ifs with h1 h2 h3
  · rfl
  · ext
    · rfl
    · simpa using h3
  · rfl
  · rfl

theorem mulV_flags (x : Iv) (hx : Flags x) (t r : ℝ) (h : Mem x r) : Mem (mulV x t) (r * t) := by
  have nt : Near ⟨(t : EReal), 0⟩ t := fun _ => rfl
  have key : ∀ (l u : Bd), (l.f = 0 ∨ l.f = 1) → (u.f = 0 ∨ u.f = -1) → Near l r → Near u r →
      l.v * (t : EReal) ≤ ((r * t : ℝ) : EReal) → ((r * t : ℝ) : EReal) ≤ u.v * (t : EReal) →
      Mem (if x.int = false ∨ ¬ isInt (t : EReal) then Iv.setMaybeReal ⟨l.mulV t, u.mulV t, x.int⟩
        else Iv.setInteger ⟨l.mulV t, u.mulV t, x.int⟩) (r * t) := by
    intro l u lf uf nl nu h1 h2
    have A : Above (l.mulV t) (r * t) := by
      by_cases ht : t = 0
      · subst ht; simp [Bd.mulV, Above]
      · rw [mulV_lmul]; exact lower_corner nl nt h1 le_rfl (ne_side ht)
    have B : Below (u.mulV t) (r * t) := by
      by_cases ht : t = 0
      · subst ht; simp [Bd.mulV, Below]
      · rw [mulV_umul]; exact upper_corner nu nt h2 le_rfl (ne_side ht)
    split_ifs with g
    · rw [C54_setMaybeReal_mem]; exact ⟨A, B⟩
    · push Not at g
      have ok1 : LoOk (l.mulV t) := by rw [mulV_lmul]; exact lmul_ok lf
      have ok2 : UpOk (u.mulV t) := by rw [mulV_umul]; exact umul_ok uf
      rw [C54_setInteger_mem _ ok1 ok2]
      obtain ⟨a, ha⟩ := h.2.2 (by simpa using g.1)
      obtain ⟨b, hb⟩ := g.2
      exact ⟨A, B, a * b, by push_cast; rw [ha, EReal.coe_injective hb]⟩
  unfold mulV
  by_cases ht : t < 0
  · have ht' : (t : EReal) < 0 := by exact_mod_cast ht
    simp only [if_pos ht']
    refine key (lset x.up) (uset x.lo) (lset_f _) (uset_f _) (near_lset (Below.near h.2.1)) (near_uset (Above.near h.1)) ?_ ?_
    · rw [EReal.coe_mul]; exact emul_le_right' (Below.le (b := x.up) h.2.1) ht'.le
    · rw [EReal.coe_mul]; exact emul_le_right' (Above.le (b := x.lo) h.1) ht'.le
  · have ht' : ¬ (t : EReal) < 0 := by exact_mod_cast ht
    simp only [if_neg ht']
    refine key x.lo x.up hx.lf hx.uf (Above.near h.1) (Below.near h.2.1) ?_ ?_
    · rw [EReal.coe_mul]; exact emul_le_right (Above.le h.1) (not_lt.1 ht')
    · rw [EReal.coe_mul]; exact emul_le_right (Below.le h.2.1) (not_lt.1 ht')

/-- **C125**: an interval times a number contains the products of its members with the number. -/
theorem C125_mulV_mem (x : Iv) (hx : Proper x) (t r : ℝ) (h : Mem x r) : Mem (mulV x t) (r * t) := mulV_flags x hx.flags t r h

theorem mul_flags (x y : Iv) (hx : Flags x) (hy : Flags y) (r s : ℝ) (h1 : Mem x r) (h2 : Mem y s) : Mem (mul x y) (r * s) := by
  unfold mul
  by_cases hp : y.onePoint
  · rw [if_pos hp]
    rw [onePoint_val hp h2]
    exact mulV_flags x hx s r h1
  rw [if_neg hp]
  have a1 := Above.le h1.1
  have a2 := Below.le h1.2.1
  have b1 := Above.le h2.1
  have b2 := Below.le h2.2.1
  have na1 := Above.near h1.1
  have na2 := Below.near h1.2.1
  have nb1 := Above.near h2.1
  have nb2 := Below.near h2.2.1
  have e := EReal.coe_mul r s
  simp only
  by_cases y1 : ltV y 0
  · rw [if_pos y1]
    have hy1 := neg0 y1 h2
    have s0 := coe_nonpos' hy1.lt.le
    by_cases x1 : ltV x 0
    · rw [if_pos x1]
      have hx1 := neg0 x1 h1
      have l0 : x.lo.v ≤ 0 := a1.trans (coe_nonpos' hx1.lt.le)
      refine mul_finish (lmul_ok (lset_f _)) (umul_ok (uset_f _)) h1 h2 ?_ ?_
      · exact lower_corner (near_lset na2) nb2 (by rw [e]; exact emul_le_right' a2 s0) (emul_le_left' b2 hx1.up) (ne_side hy1.lt.ne)
      · exact upper_corner (near_uset na1) nb1 (by rw [e]; exact emul_le_right' a1 s0) (emul_le_left' b1 l0) (ne_side hy1.lt.ne)
    rw [if_neg x1]
    by_cases x2 : gtV x 0
    · rw [if_pos x2]
      have hx2 := pos0 x2 h1
      have u0 : 0 ≤ x.up.v := (coe_nonneg' hx2.gt.le).trans a2
      refine mul_finish (lmul_ok (lset_f _)) (umul_ok (uset_f _)) h1 h2 ?_ ?_
      · exact lower_corner (near_lset na2) nb1 (by rw [e]; exact emul_le_right' a2 s0) (emul_le_left b1 u0) (ne_side hy1.lt.ne)
      · exact upper_corner (near_uset na1) nb2 (by rw [e]; exact emul_le_right' a1 s0) (emul_le_left b2 hx2.lo) (ne_side hy1.lt.ne)
    rw [if_neg x2]
    have hm := mix0 hx x1 x2
    refine mul_finish (lmul_ok (lset_f _)) (umul_ok (uset_f _)) h1 h2 ?_ ?_
    · exact lower_corner (near_lset na2) nb1 (by rw [e]; exact emul_le_right' a2 s0) (emul_le_left b1 hm.up) (ne_side hy1.lt.ne)
    · exact upper_corner (near_uset na1) nb1 (by rw [e]; exact emul_le_right' a1 s0) (emul_le_left' b1 hm.lo) (ne_side hy1.lt.ne)
  rw [if_neg y1]
  by_cases y2 : gtV y 0
  · rw [if_pos y2]
    have hy2 := pos0 y2 h2
    have s0 := coe_nonneg' hy2.gt.le
    by_cases x1 : ltV x 0
    · rw [if_pos x1]
      have hx1 := neg0 x1 h1
      have l0 : x.lo.v ≤ 0 := a1.trans (coe_nonpos' hx1.lt.le)
      refine mul_finish (lmul_ok hx.lf) (umul_ok hx.uf) h1 h2 ?_ ?_
      · exact lower_corner na1 nb2 (by rw [e]; exact emul_le_right a1 s0) (emul_le_left' b2 l0) (ne_side hy2.gt.ne')
      · exact upper_corner na2 nb1 (by rw [e]; exact emul_le_right a2 s0) (emul_le_left' b1 hx1.up) (ne_side hy2.gt.ne')
    rw [if_neg x1]
    by_cases x2 : gtV x 0
    · rw [if_pos x2]
      have hx2 := pos0 x2 h1
      have u0 : 0 ≤ x.up.v := (coe_nonneg' hx2.gt.le).trans a2
      refine mul_finish (lmul_ok hx.lf) (umul_ok hx.uf) h1 h2 ?_ ?_
      · exact lower_corner na1 nb1 (by rw [e]; exact emul_le_right a1 s0) (emul_le_left b1 hx2.lo) (ne_side hy2.gt.ne')
      · exact upper_corner na2 nb2 (by rw [e]; exact emul_le_right a2 s0) (emul_le_left b2 u0) (ne_side hy2.gt.ne')
    rw [if_neg x2]
    have hm := mix0 hx x1 x2
    refine mul_finish (lmul_ok hx.lf) (umul_ok hx.uf) h1 h2 ?_ ?_
    · exact lower_corner na1 nb2 (by rw [e]; exact emul_le_right a1 s0) (emul_le_left' b2 hm.lo) (ne_side hy2.gt.ne')
    · exact upper_corner na2 nb2 (by rw [e]; exact emul_le_right a2 s0) (emul_le_left b2 hm.up) (ne_side hy2.gt.ne')
  rw [if_neg y2]
  have hn := mix0 hy y1 y2
  by_cases x1 : ltV x 0
  · rw [if_pos x1]
    have hx1 := neg0 x1 h1
    have l0 : x.lo.v < 0 := lt_of_le_of_lt a1 (by exact_mod_cast hx1.lt)
    refine mul_finish (lmul_ok hx.lf) (umul_ok (uset_f _)) h1 h2 ?_ ?_
    · rcases le_or_gt 0 s with g | g
      · exact lower_corner na1 nb2 (by rw [e]; exact emul_le_right a1 (coe_nonneg' g)) (emul_le_left' b2 l0.le) (fun _ q => absurd q l0.ne)
      · exact above_of_lt (by rw [lmul_v]; exact EReal.mul_nonpos_iff.2 (Or.inr ⟨l0.le, hn.up⟩)) (mul_pos_of_neg_of_neg hx1.lt g)
    · rcases le_or_gt s 0 with g | g
      · exact upper_corner (near_uset na1) nb1 (by rw [e]; exact emul_le_right' a1 (coe_nonpos' g)) (emul_le_left' b1 l0.le)
          (fun _ q => absurd q l0.ne)
      · exact below_of_lt (by rw [umul_v]; exact EReal.mul_nonneg_iff.2 (Or.inr ⟨l0.le, hn.lo⟩)) (mul_neg_of_neg_of_pos hx1.lt g)
  rw [if_neg x1]
  by_cases x2 : gtV x 0
  · rw [if_pos x2]
    have hx2 := pos0 x2 h1
    have u0 : 0 < x.up.v := lt_of_lt_of_le (by exact_mod_cast hx2.gt) a2
    refine mul_finish (lmul_ok (lset_f _)) (umul_ok hx.uf) h1 h2 ?_ ?_
    · rcases le_or_gt s 0 with g | g
      · exact lower_corner (near_lset na2) nb1 (by rw [e]; exact emul_le_right' a2 (coe_nonpos' g)) (emul_le_left b1 u0.le)
          (fun _ q => absurd q u0.ne')
      · exact above_of_lt (by rw [lmul_v]; exact EReal.mul_nonpos_iff.2 (Or.inl ⟨u0.le, hn.lo⟩)) (mul_pos hx2.gt g)
    · rcases le_or_gt 0 s with g | g
      · exact upper_corner na2 nb2 (by rw [e]; exact emul_le_right a2 (coe_nonneg' g)) (emul_le_left b2 u0.le) (fun _ q => absurd q u0.ne')
      · exact below_of_lt (by rw [umul_v]; exact EReal.mul_nonneg_iff.2 (Or.inl ⟨u0.le, hn.up⟩)) (mul_neg_of_pos_of_neg hx2.gt g)
  rw [if_neg x2]
  have hm := mix0 hx x1 x2
  have ok1 : LoOk (lmul y.lo x.up) := lmul_ok hy.lf
  have ok2 : LoOk (lmul x.lo y.up) := lmul_ok hx.lf
  have ok3 : UpOk (umul (uset x.lo) y.lo) := umul_ok (uset_f _)
  have ok4 : UpOk (umul x.up y.up) := umul_ok hx.uf
  have A : Above (lmul y.lo x.up) (r * s) ∨ Above (lmul x.lo y.up) (r * s) := by
    rcases le_or_gt 0 s with g | g
    · right
      exact lower_corner na1 nb2 (by rw [e]; exact emul_le_right a1 (coe_nonneg' g)) (emul_le_left' b2 hm.lo) (fun _ q => hm.lof q)
    · rcases le_or_gt 0 r with g' | g'
      · left
        rw [mul_comm r s]
        exact lower_corner nb1 na2 (by rw [EReal.coe_mul]; exact emul_le_right b1 (coe_nonneg' g')) (emul_le_left' a2 hn.lo) (fun _ q => hn.lof q)
      · left
        exact above_of_lt (by rw [lmul_v]; exact EReal.mul_nonpos_iff.2 (Or.inr ⟨hn.lo, hm.up⟩)) (mul_pos_of_neg_of_neg g' g)
  have B : Below (umul (uset x.lo) y.lo) (r * s) ∨ Below (umul x.up y.up) (r * s) := by
    rcases le_or_gt 0 s with g | g
    · right
      exact upper_corner na2 nb2 (by rw [e]; exact emul_le_right a2 (coe_nonneg' g)) (emul_le_left b2 hm.up) (fun _ q => hm.upf q)
    · left
      exact upper_corner (near_uset na1) nb1 (by rw [e]; exact emul_le_right' a1 (coe_nonpos' g.le)) (emul_le_left' b1 hm.lo) (ne_side g.ne)
  refine mul_finish ?_ ?_ h1 h2 ?_ ?_
  · show LoOk (if _ then _ else _); split_ifs; exacts [ok1, ok2]
  · show UpOk (if _ then _ else _); split_ifs; exacts [ok3, ok4]
  · show Above (if _ then _ else _) _
    split_ifs with g
    · rw [above_key ok1] at A ⊢
      rcases A with A | A
      · exact A
      · rw [above_key ok2] at A; rw [Bd.lt_key] at g; exact g.le.trans A
    · rcases A with A | A
      · rw [above_key ok1] at A; rw [above_key ok2]; rw [Bd.lt_key, not_lt] at g; exact g.trans A
      · exact A
  · show Below (if _ then _ else _) _
    split_ifs with g
    · rcases B with B | B
      · exact B
      · rw [below_key ok4] at B; rw [below_key ok3]; rw [Bd.gt_key] at g; exact B.trans g.le
    · rcases B with B | B
      · rw [below_key ok3] at B; rw [below_key ok4]; rw [Bd.gt_key, not_lt] at g; exact B.trans g
      · exact B

/-- **C125**: the product of two intervals contains every product of members. -/
theorem C125_mul_mem (x y : Iv) (hx : Proper x) (hy : Proper y) (r s : ℝ) (h1 : Mem x r) (h2 : Mem y s) : Mem (mul x y) (r * s) :=
  mul_flags x y hx.flags hy.flags r s h1 h2

/-- Non-vacuity of C125: both factors straddle 0, and the product contains both extreme products, (-2)(-5) = 10 and 3 (-5) = -15. -/
theorem C125_nonvacuous : Proper (cl (-2) 3 false) ∧ Proper (cl (-5) 1 false) ∧ Mem (mul (cl (-2) 3 false) (cl (-5) 1 false)) 10 ∧
    Mem (mul (cl (-2) 3 false) (cl (-5) 1 false)) (-15) := by
  have p1 := cl_proper_real (-2) 3 (by norm_num)
  have p2 := cl_proper_real (-5) 1 (by norm_num)
  refine ⟨p1, p2, ?_, ?_⟩
  · have := C125_mul_mem _ _ p1 p2 (-2) (-5) (by rw [cl_mem]; norm_num) (by rw [cl_mem]; norm_num)
    norm_num at this
    exact this
  · have := C125_mul_mem _ _ p1 p2 3 (-5) (by rw [cl_mem]; norm_num) (by rw [cl_mem]; norm_num)
    norm_num at this
    exact this

end Purrs.Interval
