import Verif.Props.IntervalPow
import Mathlib.Analysis.SpecialFunctions.Trigonometric.Deriv
import Mathlib.Analysis.SpecialFunctions.Trigonometric.Complex
import Mathlib.Analysis.Real.Pi.Bounds
import Mathlib.Analysis.SpecialFunctions.Trigonometric.Basic

/-!
# C131, C135: cosine, sine and tangent of an interval
-/

namespace Purrs.Interval

open Classical

/-! ## Multiples of a period -/

theorem above_shift {b : Bd} {off per t : ℝ} (hp : 0 < per) : Above ((b.addV (-off : ℝ)).divV per) t ↔ Above b (off + t * per) := by
  have hb : ((b.addV (-off : ℝ)).divV per).f = b.f := by
    unfold Bd.divV Bd.addV
    split_ifs <;> rfl
  have p0 : ((per : ℝ) : EReal) ≠ 0 := by exact_mod_cast hp.ne'
  induction hv : b.v using EReal.rec with
  | bot =>
    have e : ((b.addV (-off : ℝ)).divV per).v = ⊥ := by
      unfold Bd.divV Bd.addV
      rw [hv]
      simp only [EReal.bot_add, ne_eq, EReal.bot_ne_zero, not_false_iff, if_true]
      unfold quo
      rw [if_neg p0]
      exact EReal.bot_div_of_pos_ne_top (by exact_mod_cast hp) (EReal.coe_ne_top _)
    unfold Above
    rw [e, hv]
    exact ⟨fun _ => Or.inl (EReal.bot_lt_coe _), fun _ => Or.inl (EReal.bot_lt_coe _)⟩
  | top =>
    have e : ((b.addV (-off : ℝ)).divV per).v = ⊤ := by
      unfold Bd.divV Bd.addV
      rw [hv]
      simp only [EReal.top_add_coe, ne_eq, EReal.top_ne_zero, not_false_iff, if_true]
      unfold quo
      rw [if_neg p0]
      exact EReal.top_div_of_pos_ne_top (by exact_mod_cast hp) (EReal.coe_ne_top _)
    unfold Above
    rw [e, hv]
    constructor <;> rintro (q | ⟨q, -⟩)
    · exact absurd q not_top_lt
    · exact absurd q.symm (EReal.coe_ne_top _)
    · exact absurd q not_top_lt
    · exact absurd q.symm (EReal.coe_ne_top _)
  | coe a =>
    have e : ((b.addV (-off : ℝ)).divV per).v = (((a - off) / per : ℝ) : EReal) := by
      unfold Bd.divV Bd.addV
      rw [hv]
      have h1 : ((a : ℝ) : EReal) + ((-off : ℝ) : EReal) = ((a - off : ℝ) : EReal) := by rw [← EReal.coe_add, sub_eq_add_neg]
      simp only [h1]
      by_cases q : ((a - off : ℝ) : EReal) ≠ 0
      · rw [if_pos q, quo_coe hp.ne']
      · rw [if_neg q]
        push Not at q
        have : a - off = 0 := by exact_mod_cast q
        show ((a - off : ℝ) : EReal) = _
        rw [this, zero_div]
    rw [above_coe e, above_coe hv, hb, div_lt_iff₀ hp, div_eq_iff hp.ne']
    constructor <;> rintro (q | ⟨q, q'⟩)
    · left; linarith
    · right; exact ⟨by linarith, q'⟩
    · left; linarith
    · right; exact ⟨by linarith, q'⟩

theorem below_shift {b : Bd} {off per t : ℝ} (hp : 0 < per) : Below ((b.addV (-off : ℝ)).divV per) t ↔ Below b (off + t * per) := by
  have hb : ((b.addV (-off : ℝ)).divV per).f = b.f := by
    unfold Bd.divV Bd.addV
    split_ifs <;> rfl
  have p0 : ((per : ℝ) : EReal) ≠ 0 := by exact_mod_cast hp.ne'
  induction hv : b.v using EReal.rec with
  | bot =>
    have e : ((b.addV (-off : ℝ)).divV per).v = ⊥ := by
      unfold Bd.divV Bd.addV
      rw [hv]
      simp only [EReal.bot_add, ne_eq, EReal.bot_ne_zero, not_false_iff, if_true]
      unfold quo
      rw [if_neg p0]
      exact EReal.bot_div_of_pos_ne_top (by exact_mod_cast hp) (EReal.coe_ne_top _)
    unfold Below
    rw [e, hv]
    constructor <;> rintro (q | ⟨q, -⟩)
    · exact absurd q not_lt_bot
    · exact absurd q (EReal.coe_ne_bot _)
    · exact absurd q not_lt_bot
    · exact absurd q (EReal.coe_ne_bot _)
  | top =>
    have e : ((b.addV (-off : ℝ)).divV per).v = ⊤ := by
      unfold Bd.divV Bd.addV
      rw [hv]
      simp only [EReal.top_add_coe, ne_eq, EReal.top_ne_zero, not_false_iff, if_true]
      unfold quo
      rw [if_neg p0]
      exact EReal.top_div_of_pos_ne_top (by exact_mod_cast hp) (EReal.coe_ne_top _)
    unfold Below
    rw [e, hv]
    exact ⟨fun _ => Or.inl (EReal.coe_lt_top _), fun _ => Or.inl (EReal.coe_lt_top _)⟩
  | coe a =>
    have e : ((b.addV (-off : ℝ)).divV per).v = (((a - off) / per : ℝ) : EReal) := by
      unfold Bd.divV Bd.addV
      rw [hv]
      have h1 : ((a : ℝ) : EReal) + ((-off : ℝ) : EReal) = ((a - off : ℝ) : EReal) := by rw [← EReal.coe_add, sub_eq_add_neg]
      simp only [h1]
      by_cases q : ((a - off : ℝ) : EReal) ≠ 0
      · rw [if_pos q, quo_coe hp.ne']
      · rw [if_neg q]
        push Not at q
        have : a - off = 0 := by exact_mod_cast q
        show ((a - off : ℝ) : EReal) = _
        rw [this, zero_div]
    rw [below_coe e, below_coe hv, hb, lt_div_iff₀ hp, eq_div_iff hp.ne']
    constructor <;> rintro (q | ⟨q, q'⟩)
    · left; linarith
    · right; exact ⟨by linarith, q'⟩
    · left; linarith
    · right; exact ⟨by linarith, q'⟩

/-- **C135**: `contains_multiple` says whether a number `offset + k period` lies between the boundaries. -/
theorem C135_hasMultiple (x : Iv) (hx : Proper x) (off per : ℝ) (hp : 0 < per) :
    hasMultiple x off per ↔ ∃ k : ℤ, Above x.lo (off + k * per) ∧ Below x.up (off + k * per) := by
  set lb := (x.lo.addV (-off : ℝ)).divV per with hlb
  set ub := (x.up.addV (-off : ℝ)).divV per with hub
  have A : ∀ t : ℝ, Above lb t ↔ Above x.lo (off + t * per) := fun t => above_shift hp
  have B : ∀ t : ℝ, Below ub t ↔ Below x.up (off + t * per) := fun t => below_shift hp
  have e : (∃ k : ℤ, Above x.lo (off + k * per) ∧ Below x.up (off + k * per)) ↔ ∃ k : ℤ, Above lb k ∧ Below ub k :=
    ⟨fun ⟨k, a, b⟩ => ⟨k, (A _).2 a, (B _).2 b⟩, fun ⟨k, a, b⟩ => ⟨k, (A _).1 a, (B _).1 b⟩⟩
  rw [e]
  obtain ⟨r, hr⟩ := hx.nonempty
  have hA : Above lb ((r - off) / per) := (A _).2 (by rw [div_mul_cancel₀ _ hp.ne']; rw [show off + (r - off) = r by ring]; exact hr.1)
  have hB : Below ub ((r - off) / per) := (B _).2 (by rw [div_mul_cancel₀ _ hp.ne']; rw [show off + (r - off) = r by ring]; exact hr.2.1)
  have lf : lb.f = x.lo.f := by
    rw [hlb]; unfold Bd.divV Bd.addV; split_ifs <;> rfl
  have uf : ub.f = x.up.f := by
    rw [hub]; unfold Bd.divV Bd.addV; split_ifs <;> rfl
  set t := (r - off) / per with ht
  have la := Above.le hA
  have lbl := Below.le hB
  unfold hasMultiple
  simp only [← hlb, ← hub]
  by_cases h1 : lb.closed = true ∧ isInt lb.v
  · rw [if_pos h1]
    obtain ⟨hc, z, hz⟩ := h1
    refine ⟨fun _ => ⟨z, Or.inr ⟨hz, (closed_iff _).1 hc⟩, ?_⟩, fun _ => trivial⟩
    rw [hz] at la
    have : (z : ℝ) ≤ t := EReal.coe_le_coe_iff.1 la
    exact below_mono hB this
  · rw [if_neg h1]
    have ubb : ub.v ≠ ⊥ := by intro q; rw [q] at lbl; exact absurd (le_bot_iff.1 lbl) (EReal.coe_ne_bot _)
    have lbt : lb.v ≠ ⊤ := by intro q; rw [q] at la; exact absurd (top_le_iff.1 la) (EReal.coe_ne_top _)
    by_cases hbot : lb.v = ⊥
    · have e1 : (lfloor lb).v = ⊥ := by unfold lfloor; rw [if_pos hbot]; exact hbot
      rw [e1]
      have e2 : (ufloor ub).v ≠ ⊥ := by
        rcases ufloor_int ubb with q | ⟨⟨z, q⟩, -⟩ <;> rw [q]
        · exact top_ne_bot
        · exact EReal.coe_ne_bot _
      refine ⟨fun _ => ⟨⌊t⌋ - 1, Or.inl (by rw [hbot]; exact EReal.bot_lt_coe _), ?_⟩, fun _ => bot_lt_iff_ne_bot.2 e2⟩
      have : ((⌊t⌋ - 1 : ℤ) : ℝ) ≤ t := by push_cast; linarith [Int.floor_le t]
      exact below_mono hB this
    · obtain ⟨a, ha⟩ : ∃ a : ℝ, lb.v = a := ⟨_, (EReal.coe_toReal lbt hbot).symm⟩
      have e1 : (lfloor lb).v = ((⌊a⌋ : ℝ) : EReal) := by
        unfold lfloor; rw [if_neg hbot, ha]; rfl
      rw [e1]
      have nab : ∀ k : ℤ, Above lb k ↔ ⌊a⌋ < k := by
        intro k
        rw [above_coe ha]
        constructor
        · rintro (q | ⟨q, q'⟩)
          · exact Int.floor_lt.2 q
          · exact absurd ⟨(closed_iff _).2 q', k, by rw [ha, q]⟩ h1
        · intro q; exact Or.inl (Int.floor_lt.1 q)
      simp only [nab]
      by_cases htop : ub.v = ⊤
      · have e2 : (ufloor ub).v = ⊤ := by rw [ufloor_top htop]; exact htop
        rw [e2]
        exact ⟨fun _ => ⟨⌊a⌋ + 1, by omega, Or.inl (by rw [htop]; exact EReal.coe_lt_top _)⟩, fun _ => EReal.coe_lt_top _⟩
      · obtain ⟨⟨z, hz⟩, hzf⟩ := (ufloor_int ubb).resolve_left (by
          obtain ⟨c, hc⟩ : ∃ c : ℝ, ub.v = c := ⟨_, (EReal.coe_toReal htop ubb).symm⟩
          rw [ufloor_coe hc]
          split_ifs <;> exact EReal.coe_ne_top _)
        rw [hz]
        have nbl : ∀ k : ℤ, Below ub k ↔ k ≤ z := by
          intro k
          rw [← below_ufloor, below_coe (s := z) hz]
          constructor
          · rintro (q | ⟨q, -⟩)
            · exact (by exact_mod_cast q : k < z).le
            · exact (by exact_mod_cast q : k = z).le
          · intro q
            rcases q.lt_or_eq with g | g
            · exact Or.inl (by exact_mod_cast g)
            · exact Or.inr ⟨by rw [g], hzf⟩
        simp only [nbl]
        constructor
        · intro q
          have h2 : ((⌊a⌋ : ℤ) : ℝ) < z := EReal.coe_lt_coe_iff.1 q
          have h3 : ⌊a⌋ < z := by exact_mod_cast h2
          exact ⟨z, h3, le_rfl⟩
        · rintro ⟨k, q1, q2⟩
          exact EReal.coe_lt_coe_iff.2 (by exact_mod_cast (by omega : ⌊a⌋ < z))

/-! ## The cosine between two points -/

/-- Between two points with no minimum of the cosine between them the cosine is above the smaller of the two values. -/
theorem cos_gt_of_no_min {a r b : ℝ} (h1 : a < r) (h2 : r < b) (hn : ∀ k : ℤ, ¬ (a < Real.pi + k * (Real.pi * 2) ∧ Real.pi + k * (Real.pi * 2) < b)) :
    Real.cos a < Real.cos r ∨ Real.cos b < Real.cos r := by
  have pp := Real.pi_pos
  have p2 : 0 < Real.pi * 2 := by linarith
  obtain ⟨k, hk1, hk2⟩ : ∃ k : ℤ, -Real.pi ≤ r - k * (Real.pi * 2) ∧ r - k * (Real.pi * 2) < Real.pi := by
    refine ⟨⌊(r + Real.pi) / (Real.pi * 2)⌋, ?_, ?_⟩
    · have := (le_div_iff₀ p2).1 (Int.floor_le ((r + Real.pi) / (Real.pi * 2)))
      linarith
    · have := (div_lt_iff₀ p2).1 (Int.lt_floor_add_one ((r + Real.pi) / (Real.pi * 2)))
      linarith
  have hc : ∀ t : ℝ, Real.cos (t - k * (Real.pi * 2)) = Real.cos t := by
    intro t
    rw [mul_comm Real.pi 2]
    exact Real.cos_sub_int_mul_two_pi t k
  have n1 := hn (k - 1)
  have n2 := hn k
  push_cast at n1
  have ha : -Real.pi ≤ a - k * (Real.pi * 2) := by
    by_contra q
    push Not at q
    apply n1
    constructor
    · linarith
    · linarith
  have hb : b - k * (Real.pi * 2) ≤ Real.pi := by
    by_contra q
    push Not at q
    apply n2
    constructor <;> linarith
  rw [← hc a, ← hc r, ← hc b]
  by_cases q : r - k * (Real.pi * 2) ≤ 0
  · left
    rw [← Real.cos_neg (a - _), ← Real.cos_neg (r - _)]
    exact Real.strictAntiOn_cos ⟨by linarith, by linarith⟩ ⟨by linarith, by linarith⟩ (by linarith)
  · right
    push Not at q
    exact Real.strictAntiOn_cos ⟨by linarith, by linarith⟩ ⟨by linarith, by linarith⟩ (by linarith)

/-- The same with an offset: `t ↦ cos (t - c)` has its minima at `c + π + 2kπ`. -/
theorem wave_gt {c a r b : ℝ} (h1 : a < r) (h2 : r < b)
    (hn : ∀ k : ℤ, ¬ (a < c + Real.pi + k * (Real.pi * 2) ∧ c + Real.pi + k * (Real.pi * 2) < b)) :
    Real.cos (a - c) < Real.cos (r - c) ∨ Real.cos (b - c) < Real.cos (r - c) := by
  refine cos_gt_of_no_min (by linarith) (by linarith) fun k q => hn k ⟨by linarith [q.1], by linarith [q.2]⟩

/-- ... and its maxima at `c + 2kπ`. -/
theorem wave_lt {c a r b : ℝ} (h1 : a < r) (h2 : r < b) (hn : ∀ k : ℤ, ¬ (a < c + k * (Real.pi * 2) ∧ c + k * (Real.pi * 2) < b)) :
    Real.cos (r - c) < Real.cos (a - c) ∨ Real.cos (r - c) < Real.cos (b - c) := by
  have := wave_gt (c := c - Real.pi) h1 h2 fun k q => hn k ⟨by linarith [q.1], by linarith [q.2]⟩
  have e : ∀ t, Real.cos (t - (c - Real.pi)) = -Real.cos (t - c) := by
    intro t
    rw [show t - (c - Real.pi) = t - c + Real.pi by ring, Real.cos_add_pi]
  rw [e, e, e] at this
  rcases this with q | q
  · left; linarith
  · right; linarith

/-- The two ends of the interval have the same status, or the function takes different values on them. -/
def EndsAgree (f : ℝ → ℝ) (x : Iv) : Prop :=
  (x.lo.f = 0 ↔ x.up.f = 0) ∨ ∀ a b : ℝ, x.lo.v = a → x.up.v = b → f a ≠ f b

theorem infinite_multiple (x : Iv) (hx : Proper x) (h : x.lo.v = ⊥ ∨ x.up.v = ⊤) (off per : ℝ) (hp : 0 < per) : hasMultiple x off per := by
  rw [C135_hasMultiple x hx off per hp]
  obtain ⟨r, hr⟩ := hx.nonempty
  rcases h with h | h
  · refine ⟨⌊(r - off) / per⌋, Or.inl (by rw [h]; exact EReal.bot_lt_coe _), below_mono hr.2.1 ?_⟩
    have := (le_div_iff₀ hp).1 (Int.floor_le ((r - off) / per))
    linarith
  · refine ⟨⌈(r - off) / per⌉, above_mono hr.1 ?_, Or.inl (by rw [h]; exact EReal.coe_lt_top _)⟩
    have := (div_le_iff₀ hp).1 (Int.le_ceil ((r - off) / per))
    linarith

theorem lset_closed {b : Bd} (h : b.f = 0) : (lset b).f = 0 := by
  unfold lset lbd; rw [(closed_iff b).2 h]; rfl
theorem uset_closed {b : Bd} (h : b.f = 0) : (uset b).f = 0 := by
  unfold uset ubd; rw [(closed_iff b).2 h]; rfl
theorem lset_v (b : Bd) : (lset b).v = b.v := by
  unfold lset lbd; cases b.closed <;> rfl
theorem uset_v (b : Bd) : (uset b).v = b.v := by
  unfold uset ubd; cases b.closed <;> rfl

theorem wave_mem (f : ℝ → ℝ) (c omin omax : ℝ) (hf : ∀ t, f t = Real.cos (t - c)) (hmax : omax = c)
    (hmin : omin = c + Real.pi ∨ omin = c - Real.pi) (x : Iv) (hx : Proper x) (he : EndsAgree f x) (r : ℝ) (hr : Mem x r) :
    Mem (wave f omin omax x) (f r) := by
  have pp := Real.pi_pos
  have p2 : 0 < Real.pi * 2 := by linarith
  have b1 : -1 ≤ f r := by rw [hf]; exact Real.neg_one_le_cos _
  have b2 : f r ≤ 1 := by rw [hf]; exact Real.cos_le_one _
  have lowB : Above ⟨((-1 : ℝ) : EReal), 0⟩ (f r) := by
    rw [above_coe (s := -1) rfl]
    rcases b1.lt_or_eq with q | q
    · exact Or.inl q
    · exact Or.inr ⟨q, rfl⟩
  have upB : Below ⟨((1 : ℝ) : EReal), 0⟩ (f r) := by
    rw [below_coe (s := 1) rfl]
    rcases b2.lt_or_eq with q | q
    · exact Or.inl q
    · exact Or.inr ⟨q, rfl⟩
  unfold wave
  dsimp only
  by_cases hb : hasMultiple x omin (Real.pi * 2) ∧ hasMultiple x omax (Real.pi * 2)
  · rw [if_pos hb, C54_setMaybeReal_mem]
    exact ⟨lowB, upB⟩
  · rw [if_neg hb, C54_setMaybeReal_mem]
    dsimp only
    have l1 : x.lo.v ≠ ⊥ := fun q => hb ⟨infinite_multiple x hx (Or.inl q) _ _ p2, infinite_multiple x hx (Or.inl q) _ _ p2⟩
    have u1 : x.up.v ≠ ⊤ := fun q => hb ⟨infinite_multiple x hx (Or.inr q) _ _ p2, infinite_multiple x hx (Or.inr q) _ _ p2⟩
    obtain ⟨a, ha⟩ : ∃ a : ℝ, x.lo.v = a := ⟨_, (EReal.coe_toReal hx.ltop l1).symm⟩
    obtain ⟨b, hbv⟩ : ∃ b : ℝ, x.up.v = b := ⟨_, (EReal.coe_toReal u1 hx.ubot).symm⟩
    have e1 : x.lo.app (realE f) = ⟨((f a : ℝ) : EReal), x.lo.f⟩ := by unfold Bd.app; rw [ha]; rfl
    have e2 : x.up.app (realE f) = ⟨((f b : ℝ) : EReal), x.up.f⟩ := by unfold Bd.app; rw [hbv]; rfl
    have m1 := (above_coe ha).1 hr.1
    have m2 := (below_coe hbv).1 hr.2.1
    rw [e1, e2]
    have gtd : Bd.gt ⟨((f a : ℝ) : EReal), x.lo.f⟩ ⟨((f b : ℝ) : EReal), x.up.f⟩ ↔ f b < f a ∨ (f a = f b ∧ x.up.f < x.lo.f) := by
      rw [Bd.gt_iff]
      simp only [EReal.coe_lt_coe_iff, EReal.coe_eq_coe_iff]
    have lz : x.lo.f = 0 ∨ x.lo.f = 1 := hx.lf
    have uz : x.up.f = 0 ∨ x.up.f = -1 := hx.uf
    constructor
    · by_cases tm : hasMultiple x omin (Real.pi * 2)
      · rw [if_pos tm]; exact lowB
      · rw [if_neg tm]
        have nomin : ∀ k : ℤ, ¬ (a < c + Real.pi + k * (Real.pi * 2) ∧ c + Real.pi + k * (Real.pi * 2) < b) := by
          rintro k ⟨q1, q2⟩
          apply tm
          rw [C135_hasMultiple x hx _ _ p2]
          rcases hmin with g | g
          · exact ⟨k, (above_coe ha).2 (Or.inl (by rw [g]; exact q1)), (below_coe hbv).2 (Or.inl (by rw [g]; exact q2))⟩
          · refine ⟨k + 1, (above_coe ha).2 (Or.inl ?_), (below_coe hbv).2 (Or.inl ?_)⟩ <;> · rw [g]; push_cast; linarith
        by_cases hg : Bd.gt ⟨((f a : ℝ) : EReal), x.lo.f⟩ ⟨((f b : ℝ) : EReal), x.up.f⟩
        · rw [if_pos ⟨hg, tm⟩]
          rw [above_coe (s := f b) (lset_v _)]
          rw [gtd] at hg
          rcases m1 with q1 | ⟨q1, f1⟩
          · rcases m2 with q2 | ⟨q2, f2⟩
            · left
              have := wave_gt q1 q2 nomin
              rw [← hf, ← hf, ← hf] at this
              rcases this with t | t
              · rcases hg with g | g
                · exact g.trans t
                · exact g.1 ▸ t
              · exact t
            · right; exact ⟨by rw [q2], lset_closed f2⟩
          · rcases hg with g | ⟨g, g'⟩
            · left; rw [← q1]; exact g
            · right
              refine ⟨by rw [← q1]; exact g.symm, lset_closed ?_⟩
              rcases he with h | h
              · exact h.1 f1
              · exact absurd g (h a b ha hbv)
        · rw [if_neg (fun q => hg q.1)]
          rw [above_coe (s := f a) rfl]
          rw [gtd] at hg
          push Not at hg
          rcases m1 with q1 | ⟨q1, f1⟩
          · rcases m2 with q2 | ⟨q2, f2⟩
            · left
              have := wave_gt q1 q2 nomin
              rw [← hf, ← hf, ← hf] at this
              rcases this with t | t
              · exact t
              · exact hg.1.trans_lt t
            · rcases hg.1.lt_or_eq with g | g
              · left; rw [q2]; exact g
              · right
                refine ⟨by rw [q2]; exact g, ?_⟩
                have := hg.2 g
                show x.lo.f = 0
                rcases lz with z | z <;> omega
          · right; exact ⟨by rw [q1], f1⟩
    · by_cases tm : hasMultiple x omax (Real.pi * 2)
      · rw [if_pos tm]; exact upB
      · rw [if_neg tm]
        have nomax : ∀ k : ℤ, ¬ (a < c + k * (Real.pi * 2) ∧ c + k * (Real.pi * 2) < b) := by
          rintro k ⟨q1, q2⟩
          apply tm
          rw [C135_hasMultiple x hx _ _ p2]
          exact ⟨k, (above_coe ha).2 (Or.inl (by rw [hmax]; exact q1)), (below_coe hbv).2 (Or.inl (by rw [hmax]; exact q2))⟩
        by_cases hg : Bd.gt ⟨((f a : ℝ) : EReal), x.lo.f⟩ ⟨((f b : ℝ) : EReal), x.up.f⟩
        · rw [if_pos ⟨hg, tm⟩]
          rw [below_coe (s := f a) (uset_v _)]
          rw [gtd] at hg
          rcases m2 with q2 | ⟨q2, f2⟩
          · rcases m1 with q1 | ⟨q1, f1⟩
            · left
              have := wave_lt q1 q2 nomax
              rw [← hf, ← hf, ← hf] at this
              rcases this with t | t
              · exact t
              · rcases hg with g | g
                · exact t.trans g
                · exact g.1 ▸ t
            · right; exact ⟨by rw [q1], uset_closed f1⟩
          · rcases hg with g | ⟨g, g'⟩
            · left; rw [q2]; exact g
            · right
              refine ⟨by rw [q2]; exact g.symm, uset_closed ?_⟩
              rcases he with h | h
              · exact h.2 f2
              · exact absurd g (h a b ha hbv)
        · rw [if_neg (fun q => hg q.1)]
          rw [below_coe (s := f b) rfl]
          rw [gtd] at hg
          push Not at hg
          rcases m2 with q2 | ⟨q2, f2⟩
          · rcases m1 with q1 | ⟨q1, f1⟩
            · left
              have := wave_lt q1 q2 nomax
              rw [← hf, ← hf, ← hf] at this
              rcases this with t | t
              · exact t.trans_le hg.1
              · exact t
            · rcases hg.1.lt_or_eq with g | g
              · left; rw [← q1]; exact g
              · right
                refine ⟨by rw [← q1]; exact g, ?_⟩
                have := hg.2 g
                show x.up.f = 0
                rcases uz with z | z <;> omega
          · right; exact ⟨by rw [q2], f2⟩

/-- **C135**: the cosine of an interval contains the cosines of its members, when both ends have the same status or different cosines. -/
theorem C135_cos_mem (x : Iv) (hx : Proper x) (he : EndsAgree Real.cos x) (r : ℝ) (hr : Mem x r) : Mem (cosA x) (Real.cos r) :=
  wave_mem Real.cos 0 Real.pi 0 (fun t => by rw [sub_zero]) rfl (Or.inl (by ring)) x hx he r hr

/-- **C135**: the sine of an interval contains the sines of its members, when both ends have the same status or different sines. -/
theorem C135_sin_mem (x : Iv) (hx : Proper x) (he : EndsAgree Real.sin x) (r : ℝ) (hr : Mem x r) : Mem (sinA x) (Real.sin r) :=
  wave_mem Real.sin (Real.pi / 2) (-(Real.pi / 2)) (Real.pi / 2) (fun t => (Real.cos_sub_pi_div_two t).symm) rfl (Or.inr (by ring)) x hx he r hr

/-- **C135**: the tangent of an interval contains the tangents of its members (whose cosine is not zero), when no end is a pole. -/
theorem C135_tan_mem (x : Iv) (hx : Proper x) (hl : ∀ a : ℝ, x.lo.v = a → Real.cos a ≠ 0) (hu : ∀ b : ℝ, x.up.v = b → Real.cos b ≠ 0)
    (r : ℝ) (hr : Mem x r) : Mem (tanA x) (Real.tan r) := by
  have pp := Real.pi_pos
  unfold tanA
  by_cases hm : hasMultiple x (Real.pi / 2) Real.pi
  · rw [if_pos hm, C54_setMaybeReal_mem]
    exact ⟨Or.inl (EReal.bot_lt_coe _), Or.inl (EReal.coe_lt_top _)⟩
  · rw [if_neg hm, C54_setMaybeReal_mem]
    have l1 : x.lo.v ≠ ⊥ := fun q => hm (infinite_multiple x hx (Or.inl q) _ _ pp)
    have u1 : x.up.v ≠ ⊤ := fun q => hm (infinite_multiple x hx (Or.inr q) _ _ pp)
    rw [C135_hasMultiple x hx _ _ pp] at hm
    have hn : ∀ k : ℤ, Above x.lo (Real.pi / 2 + k * Real.pi) → ¬ Below x.up (Real.pi / 2 + k * Real.pi) := fun k q1 q2 => hm ⟨k, q1, q2⟩
    obtain ⟨k, hk1, hk2⟩ : ∃ k : ℤ, -(Real.pi / 2) ≤ r - k * Real.pi ∧ r - k * Real.pi < Real.pi / 2 := by
      refine ⟨⌊(r + Real.pi / 2) / Real.pi⌋, ?_, ?_⟩
      · have := (le_div_iff₀ pp).1 (Int.floor_le ((r + Real.pi / 2) / Real.pi))
        linarith
      · have := (div_lt_iff₀ pp).1 (Int.lt_floor_add_one ((r + Real.pi / 2) / Real.pi))
        linarith
    have ht : ∀ t : ℝ, Real.tan (t - k * Real.pi) = Real.tan t := fun t => Real.tan_periodic.sub_int_mul_eq k
    have cz : ∀ j : ℤ, Real.cos (Real.pi / 2 + j * Real.pi) = 0 := by
      intro j
      rw [Real.cos_eq_zero_iff]
      exact ⟨j, by ring⟩
    have n1 := hn (k - 1)
    have n2 := hn k
    push_cast at n1
    have hk1' : -(Real.pi / 2) < r - k * Real.pi := by
      rcases hk1.lt_or_eq with q | q
      · exact q
      · have e : Real.pi / 2 + ((k : ℝ) - 1) * Real.pi = r := by linarith
        rw [e] at n1
        exact absurd hr.2.1 (n1 hr.1)
    have lowT : ∀ t : ℝ, x.lo.v = t → -(Real.pi / 2) < t - k * Real.pi := by
      intro t h
      by_contra q
      push Not at q
      rcases q.lt_or_eq with g | g
      · exact n1 ((above_coe h).2 (Or.inl (by linarith))) (below_mono hr.2.1 (by linarith))
      · have := cz (k - 1)
        rw [show Real.pi / 2 + ((k - 1 : ℤ) : ℝ) * Real.pi = t by push_cast; linarith] at this
        exact hl t h this
    have upT : ∀ t : ℝ, x.up.v = t → t - k * Real.pi < Real.pi / 2 := by
      intro t h
      by_contra q
      push Not at q
      rcases q.lt_or_eq with g | g
      · exact n2 (above_mono hr.1 (by linarith)) ((below_coe h).2 (Or.inl (by linarith)))
      · have := cz k
        rw [show Real.pi / 2 + (k : ℝ) * Real.pi = t by linarith] at this
        exact hu t h this
    refine ⟨app_above (g := Real.tan) (fun t h hle => ⟨rfl, fun g => ?_⟩) (fun q => absurd q l1) hr.1,
      app_below (g := Real.tan) (fun t h hle => ⟨rfl, fun g => ?_⟩) (fun q => absurd q u1) hr.2.1⟩
    · rw [← ht t, ← ht r]
      exact Real.strictMonoOn_tan ⟨lowT t h, by linarith⟩ ⟨hk1', hk2⟩ (by linarith)
    · rw [← ht t, ← ht r]
      exact Real.strictMonoOn_tan ⟨hk1', hk2⟩ ⟨by linarith, upT t h⟩ (by linarith)

/-- Non-vacuity of C135: the reals from -1 to 2 contain the maximum 0 of the cosine and the pole-free stretch of the tangent from -1 to 1. -/
theorem C135_nonvacuous : Proper (cl (-1) 2 false) ∧ EndsAgree Real.cos (cl (-1) 2 false) ∧ Mem (cl (-1) 2 false) 0 ∧ Mem (cosA (cl (-1) 2 false)) 1 ∧
    hasMultiple (cl (-1) 2 false) 0 (Real.pi * 2) ∧ ¬ hasMultiple (cl (-1) 1 false) (Real.pi / 2) Real.pi ∧
    Mem (tanA (cl (-1) 1 false)) (Real.tan 1) ∧ ¬ Mem (tanA (cl (-1) 1 false)) (Real.tan 1 + 1) := by
  have pp := Real.pi_pos
  have p3 := Real.pi_gt_three
  have h0 : Proper (cl (-1) 2 false) := cl_proper_real _ _ (by norm_num)
  have h1 : Proper (cl (-1) 1 false) := cl_proper_real _ _ (by norm_num)
  have m0 : Mem (cl (-1) 2 false) 0 := by rw [cl_mem]; norm_num
  have nm : ¬ hasMultiple (cl (-1) 1 false) (Real.pi / 2) Real.pi := by
    rw [C135_hasMultiple _ h1 _ _ pp]
    rintro ⟨k, q1, q2⟩
    unfold cl at q1 q2
    rw [above_coe (s := -1) rfl] at q1
    rw [below_coe (s := 1) rfl] at q2
    have q1' : -1 ≤ Real.pi / 2 + k * Real.pi := by rcases q1 with q | q; exacts [q.le, q.1.le]
    have q2' : Real.pi / 2 + k * Real.pi ≤ 1 := by rcases q2 with q | q; exacts [q.le, q.1.le]
    have : (k : ℝ) < 0 := by nlinarith
    have k1 : (k : ℝ) ≤ -1 := by exact_mod_cast Int.le_sub_one_of_lt (by exact_mod_cast this : k < 0)
    nlinarith
  refine ⟨h0, Or.inl (by unfold cl; simp), m0, ?_, ?_, nm, ?_, ?_⟩
  · have := C135_cos_mem _ h0 (Or.inl (by unfold cl; simp)) 0 m0
    rwa [Real.cos_zero] at this
  · rw [C135_hasMultiple _ h0 _ _ (by linarith)]
    refine ⟨0, ?_, ?_⟩
    · exact Or.inl (by unfold cl; simp only [Int.cast_zero, zero_mul, add_zero]; exact EReal.coe_lt_coe_iff.2 (by norm_num))
    · exact Or.inl (by unfold cl; simp only [Int.cast_zero, zero_mul, add_zero]; exact EReal.coe_lt_coe_iff.2 (by norm_num))
  · have cp : ∀ t : ℝ, -1 ≤ t → t ≤ 1 → Real.cos t ≠ 0 := fun t g1 g2 => (Real.cos_pos_of_mem_Ioo ⟨by linarith, by linarith⟩).ne'
    exact C135_tan_mem _ h1 (fun a h => by
      have : a = -1 := (EReal.coe_injective h).symm
      rw [this]; exact cp _ le_rfl (by norm_num)) (fun a h => by
      have : a = 1 := (EReal.coe_injective h).symm
      rw [this]; exact cp _ (by norm_num) le_rfl) 1 (by rw [cl_mem]; norm_num)
  · unfold tanA
    rw [if_neg nm, C54_setMaybeReal_mem]
    rintro ⟨-, q⟩
    have : Below ⟨((Real.tan 1 : ℝ) : EReal), 0⟩ (Real.tan 1 + 1) := q
    rw [below_coe (s := Real.tan 1) rfl] at this
    rcases this with g | ⟨g, -⟩ <;> linarith

/-! ## C131: half-open intervals -/

/-- The reals from -1 to 1 without 1. -/
noncomputable def halfOpen : Iv := ⟨⟨((-1 : ℝ) : EReal), 0⟩, ⟨((1 : ℝ) : EReal), -1⟩, false⟩

theorem halfOpen_mem (r : ℝ) : Mem halfOpen r ↔ -1 ≤ r ∧ r < 1 := by
  rw [mem_def]
  unfold halfOpen
  rw [above_coe (s := -1) rfl, below_coe (s := 1) rfl]
  simp [le_iff_lt_or_eq]

theorem halfOpen_proper : Proper halfOpen := by
  refine ⟨Or.inl rfl, Or.inr rfl, ?_, ?_, EReal.coe_ne_top _, EReal.coe_ne_bot _, ?_, ?_, ?_, ?_⟩
  · intro g; exact absurd g (EReal.coe_ne_bot _)
  · intro g; exact absurd g (EReal.coe_ne_top _)
  · rw [Bd.le_iff]; left; exact EReal.coe_lt_coe_iff.2 (by norm_num)
  · intro g; cases g
  · intro g; cases g
  · rintro - ⟨g, -⟩
    have := EReal.coe_injective (congrArg Bd.v g)
    norm_num at this

/-- **C131** refuted: the reals from -1 to 1 without 1 contain -1, but the cosine of the interval does not contain cos(-1): the lower
boundary of the answer takes its status from the open end 1, where the cosine has the same value. -/
theorem C131_half_open_refuted :
    ∃ (x : Iv) (r : ℝ), Proper x ∧ x.int = false ∧ Mem x r ∧ ¬ Mem (cosA x) (Real.cos r) := by
  have pp := Real.pi_pos
  have p3 := Real.pi_gt_three
  refine ⟨halfOpen, -1, halfOpen_proper, rfl, by rw [halfOpen_mem]; norm_num, ?_⟩
  have nm : ¬ hasMultiple halfOpen Real.pi (Real.pi * 2) := by
    rw [C135_hasMultiple _ halfOpen_proper _ _ (by linarith)]
    rintro ⟨k, q1, q2⟩
    unfold halfOpen at q1 q2
    rw [above_coe (s := -1) rfl] at q1
    rw [below_coe (s := 1) rfl] at q2
    have q1' : -1 ≤ Real.pi + k * (Real.pi * 2) := by rcases q1 with q | q; exacts [q.le, q.1.le]
    have q2' : Real.pi + k * (Real.pi * 2) ≤ 1 := by rcases q2 with q | q; exacts [q.le, q.1.le]
    have : (k : ℝ) < 0 := by nlinarith
    have k1 : (k : ℝ) ≤ -1 := by exact_mod_cast Int.le_sub_one_of_lt (by exact_mod_cast this : k < 0)
    nlinarith
  unfold cosA wave
  dsimp only
  rw [if_neg (fun q => nm q.1), if_neg nm, C54_setMaybeReal_mem]
  rintro ⟨q, -⟩
  dsimp only at q
  have e1 : halfOpen.lo.app (realE Real.cos) = ⟨((Real.cos 1 : ℝ) : EReal), 0⟩ := by
    show (⟨((Real.cos (-1) : ℝ) : EReal), 0⟩ : Bd) = _
    rw [Real.cos_neg]
  have e2 : halfOpen.up.app (realE Real.cos) = ⟨((Real.cos 1 : ℝ) : EReal), -1⟩ := rfl
  rw [e1, e2, if_pos ⟨Or.inr ⟨rfl, by norm_num⟩, nm⟩] at q
  rw [above_coe (s := Real.cos 1) (lset_v _), Real.cos_neg] at q
  rcases q with q | ⟨-, q⟩
  · exact lt_irrefl _ q
  · simp [lset, lbd, Bd.closed] at q

end Purrs.Interval
