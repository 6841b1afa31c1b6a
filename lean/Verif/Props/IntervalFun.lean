import Verif.Props.IntervalDiv
import Mathlib.Analysis.SpecialFunctions.Sqrt
import Mathlib.Analysis.SpecialFunctions.Log.Basic

/-!
# C128: square root, exponential and logarithm of an interval
-/

namespace Purrs.Interval

open Classical

theorem app_above {f : EReal → EReal} {g : ℝ → ℝ} {b : Bd} {r : ℝ} (hf : ∀ t : ℝ, b.v = t → t ≤ r → f t = ((g t : ℝ) : EReal) ∧ (t < r → g t < g r) )
    (hb : b.v = ⊥ → f ⊥ < ((g r : ℝ) : EReal)) (h : Above b r) : Above (b.app f) (g r) := by
  have hle := Above.le h
  unfold Bd.app
  induction hv : b.v using EReal.rec with
  | bot => exact Or.inl (hb hv)
  | top => rw [hv] at hle; exact absurd (top_le_iff.1 hle) (EReal.coe_ne_top _)
  | coe t =>
    rw [above_coe hv] at h
    rcases h with q | ⟨q, q'⟩
    · have := hf t hv q.le
      left
      show f (t : EReal) < _
      rw [this.1]
      exact EReal.coe_lt_coe_iff.2 (this.2 q)
    · subst q
      exact Or.inr ⟨(hf t hv le_rfl).1, q'⟩

theorem app_below {f : EReal → EReal} {g : ℝ → ℝ} {b : Bd} {r : ℝ} (hf : ∀ t : ℝ, b.v = t → r ≤ t → f t = ((g t : ℝ) : EReal) ∧ (r < t → g r < g t))
    (hb : b.v = ⊤ → ((g r : ℝ) : EReal) < f ⊤) (h : Below b r) : Below (b.app f) (g r) := by
  have hle := Below.le h
  unfold Bd.app
  induction hv : b.v using EReal.rec with
  | top => exact Or.inl (hb hv)
  | bot => rw [hv] at hle; exact absurd (le_bot_iff.1 hle) (EReal.coe_ne_bot _)
  | coe t =>
    rw [below_coe hv] at h
    rcases h with q | ⟨q, q'⟩
    · have := hf t hv q.le
      left
      show _ < f (t : EReal)
      rw [this.1]
      exact EReal.coe_lt_coe_iff.2 (this.2 q)
    · subst q
      exact Or.inr ⟨(hf r hv le_rfl).1.symm, q'⟩

/-- **C128**: the square root of an interval contains the square roots of its members that are not negative. -/
theorem C128_sqrt_mem (x : Iv) (r : ℝ) (h : Mem x r) (h0 : 0 ≤ r) : Mem (sqrtA x) (Real.sqrt r) := by
  unfold sqrtA
  have h1 : ¬ ltV x 0 := fun q => absurd ((C54_value_comparisons x 0).1 (by simpa using q) r h) (not_lt.2 h0)
  rw [if_neg h1, C54_setMaybeReal_mem]
  refine ⟨?_, app_below (fun t _ ht => ⟨rfl, fun g => Real.sqrt_lt_sqrt h0 g⟩) (fun _ => EReal.coe_lt_top _) h.2.1⟩
  by_cases hg : gtV x 0
  · simp only [if_pos hg]
    have p := pos0 hg h
    refine app_above (fun t ht _ => ⟨rfl, fun g => Real.sqrt_lt_sqrt ?_ g⟩) (fun hb => EReal.bot_lt_coe _) h.1
    have := p.lo
    rw [ht] at this
    exact_mod_cast this
  · simp only [if_neg hg]
    rcases (Real.sqrt_nonneg r).lt_or_eq with q | q
    · exact above_of_lt le_rfl q
    · exact Or.inr ⟨by rw [← q]; rfl, rfl⟩

/-- **C128**: the exponential of an interval contains the exponentials of its members. -/
theorem C128_exp_mem (x : Iv) (r : ℝ) (h : Mem x r) : Mem (expA x) (Real.exp r) := by
  unfold expA
  rw [C54_setMaybeReal_mem]
  refine ⟨app_above (fun t _ _ => ⟨rfl, fun g => Real.exp_lt_exp.2 g⟩) (fun _ => ?_) h.1,
    app_below (fun t _ ht => ⟨rfl, fun g => Real.exp_lt_exp.2 g⟩) (fun _ => EReal.coe_lt_top _) h.2.1⟩
  show (0 : EReal) < _
  exact_mod_cast Real.exp_pos r

/-- **C128**: the logarithm of an interval contains the logarithms of its positive members. -/
theorem C128_log_mem (x : Iv) (r : ℝ) (h : Mem x r) (h0 : 0 < r) : Mem (logA x) (Real.log r) := by
  unfold logA
  have h1 : ¬ leV x 0 := fun q => absurd ((C54_value_comparisons x 0).2.2.1 (by simpa using q) r h) (not_le.2 h0)
  rw [if_neg h1, C54_setMaybeReal_mem]
  have e : ∀ t : ℝ, 0 < t → logE t = ((Real.log t : ℝ) : EReal) := fun t ht => by
    show (if t = 0 then ⊥ else _) = _
    rw [if_neg ht.ne']
  refine ⟨?_, app_below (fun t _ ht => ⟨e t (h0.trans_le ht), fun g => Real.log_lt_log h0 g⟩) (fun _ => EReal.coe_lt_top _) h.2.1⟩
  by_cases hg : gtV x 0
  · rw [if_neg (not_not.2 hg)]
    have p := pos0 hg h
    have hlo := p.lo
    induction hv : x.lo.v using EReal.rec with
    | bot => rw [hv] at hlo; simp at hlo
    | top => have := Above.le h.1; rw [hv] at this; exact absurd (top_le_iff.1 this) (EReal.coe_ne_top _)
    | coe t =>
      have ht : 0 ≤ t := by rw [hv] at hlo; exact_mod_cast hlo
      rcases ht.lt_or_eq with q | q
      · exact app_above (fun u hu _ => by
          have : u = t := EReal.coe_injective (hu.symm.trans hv)
          subst this
          exact ⟨e u q, fun g => Real.log_lt_log q g⟩) (fun hb => by rw [hv] at hb; exact absurd hb (EReal.coe_ne_bot _)) h.1
      · left
        show logE x.lo.v < _
        rw [hv, ← q]
        show (if (0 : ℝ) = 0 then (⊥ : EReal) else _) < _
        rw [if_pos rfl]
        exact EReal.bot_lt_coe _
  · rw [if_pos hg]
    exact Or.inl (EReal.bot_lt_coe _)

/-- **C128**: a square root or logarithm of an interval without arguments in the domain is empty. -/
theorem C128_domain (x : Iv) : ((∀ r, Mem x r → r < 0) → Proper x → ∀ t, ¬ Mem (sqrtA x) t) ∧
    ((∀ r, Mem x r → r ≤ 0) → Proper x → ∀ t, ¬ Mem (logA x) t) := by
  refine ⟨fun h hx t => ?_, fun h hx t => ?_⟩
  · unfold sqrtA
    rw [if_pos (by simpa using ltV_of hx h)]
    exact mem_empty t
  · unfold logA
    rw [if_pos (show leV x 0 from not_lt.2 (by simpa using up_le_of hx h))]
    exact mem_empty t

theorem above_app_iff {f : EReal → EReal} {g : ℝ → ℝ} {b : Bd} {r : ℝ} (ht : b.v ≠ ⊤) (hf : ∀ t : ℝ, b.v = t → f t = ((g t : ℝ) : EReal) ∧ (g t < g r → t < r) ∧ (g t = g r → t = r))
    (h : Above (b.app f) (g r)) : Above b r := by
  unfold Bd.app at h
  induction hv : b.v using EReal.rec with
  | bot => exact Or.inl (by rw [hv]; exact EReal.bot_lt_coe _)
  | top => exact absurd hv ht
  | coe t =>
    obtain ⟨e, m1, m2⟩ := hf t hv
    rw [hv, e, above_coe (s := g t) rfl] at h
    rw [above_coe hv]
    rcases h with q | ⟨q, q'⟩
    · exact Or.inl (m1 q)
    · exact Or.inr ⟨m2 q, q'⟩

theorem below_app_iff {f : EReal → EReal} {g : ℝ → ℝ} {b : Bd} {r : ℝ} (ht : b.v ≠ ⊥) (hf : ∀ t : ℝ, b.v = t → f t = ((g t : ℝ) : EReal) ∧ (g r < g t → r < t) ∧ (g t = g r → t = r))
    (h : Below (b.app f) (g r)) : Below b r := by
  unfold Bd.app at h
  induction hv : b.v using EReal.rec with
  | top => exact Or.inl (by rw [hv]; exact EReal.coe_lt_top _)
  | bot => exact absurd hv ht
  | coe t =>
    obtain ⟨e, m1, m2⟩ := hf t hv
    rw [hv, e, below_coe (s := g t) rfl] at h
    rw [below_coe hv]
    rcases h with q | ⟨q, q'⟩
    · exact Or.inl (m1 q)
    · exact Or.inr ⟨(m2 q.symm).symm, q'⟩

/-- **C128**: for an interval of reals the exponential is exact: the answer holds nothing but the exponentials of its members. -/
theorem C128_exp_exact (x : Iv) (hx : Proper x) (hr : x.int = false) (t : ℝ) : Mem (expA x) t ↔ ∃ r, Mem x r ∧ t = Real.exp r := by
  constructor
  · intro h
    unfold expA at h
    rw [C54_setMaybeReal_mem] at h
    have t0 : 0 < t := by
      have := Above.le h.1
      rcases h.1 with q | ⟨q, q'⟩
      · have : (0 : EReal) ≤ (x.lo.app expE).v := by
          show 0 ≤ expE x.lo.v
          induction x.lo.v using EReal.rec with
          | bot => exact le_rfl
          | top => exact le_top
          | coe s => show (0 : EReal) ≤ ((Real.exp s : ℝ) : EReal); exact_mod_cast (Real.exp_pos s).le
        exact_mod_cast this.trans_lt q
      · change expE x.lo.v = _ at q
        change x.lo.f = 0 at q'
        induction hv : x.lo.v using EReal.rec with
        | bot => have := hx.lbot hv; omega
        | top => exact absurd hv hx.ltop
        | coe s =>
          rw [hv] at q
          have : Real.exp s = t := EReal.coe_injective q
          rw [← this]; exact Real.exp_pos s
    refine ⟨Real.log t, ⟨?_, ?_, by simp [hr]⟩, (Real.exp_log t0).symm⟩
    · refine above_app_iff (f := expE) (g := Real.exp) hx.ltop (fun s _ => ⟨rfl, fun q => Real.exp_lt_exp.1 q, fun q => Real.exp_injective q⟩) ?_
      rw [Real.exp_log t0]; exact h.1
    · refine below_app_iff (f := expE) (g := Real.exp) hx.ubot (fun s _ => ⟨rfl, fun q => Real.exp_lt_exp.1 q, fun q => Real.exp_injective q⟩) ?_
      rw [Real.exp_log t0]; exact h.2
  · rintro ⟨r, h, rfl⟩
    exact C128_exp_mem x r h

/-- **C128**: for an interval of reals the square root is exact. -/
theorem C128_sqrt_exact (x : Iv) (hx : Proper x) (hr : x.int = false) (t : ℝ) :
    Mem (sqrtA x) t ↔ ∃ r, Mem x r ∧ 0 ≤ r ∧ t = Real.sqrt r := by
  constructor
  · intro h
    unfold sqrtA at h
    by_cases h1 : ltV x 0
    · rw [if_pos h1] at h; exact absurd h (mem_empty t)
    rw [if_neg h1, C54_setMaybeReal_mem] at h
    obtain ⟨ha, hb⟩ := h
    have up : 0 ≤ t → Below x.up (t ^ 2) := by
      intro t0
      have hup : (0 : EReal) ≤ x.up.v := by
        by_contra g
        push Not at g
        exact h1 (Or.inl g)
      refine below_app_iff (f := sqrtE) (g := Real.sqrt) hx.ubot (fun s hs => ?_) (by rw [Real.sqrt_sq t0]; exact hb)
      have s0 : 0 ≤ s := by rw [hs] at hup; exact_mod_cast hup
      refine ⟨rfl, fun q => (Real.sqrt_lt_sqrt_iff (sq_nonneg t)).1 q, fun q => (Real.sqrt_inj s0 (sq_nonneg t)).1 q⟩
    by_cases hg : gtV x 0
    · simp only [if_pos hg] at ha
      have hlo : (0 : EReal) ≤ x.lo.v := by rcases hg with q | q; exacts [le_of_lt q, q.1.ge]
      have hv := hx.ltop
      have t0 : 0 ≤ t := by
        have := Above.le ha
        change sqrtE x.lo.v ≤ _ at this
        induction hv' : x.lo.v using EReal.rec with
        | bot => rw [hv'] at hlo; simp at hlo
        | top => exact absurd hv' hv
        | coe s =>
          rw [hv'] at this
          have : Real.sqrt s ≤ t := EReal.coe_le_coe_iff.1 this
          exact (Real.sqrt_nonneg s).trans this
      refine ⟨t ^ 2, ⟨?_, up t0, by simp [hr]⟩, sq_nonneg t, (Real.sqrt_sq t0).symm⟩
      refine above_app_iff (f := sqrtE) (g := Real.sqrt) hv (fun s hs => ?_) (by rw [Real.sqrt_sq t0]; exact ha)
      have s0 : 0 ≤ s := by rw [hs] at hlo; exact_mod_cast hlo
      exact ⟨rfl, fun q => (Real.sqrt_lt_sqrt_iff s0).1 q, fun q => (Real.sqrt_inj s0 (sq_nonneg t)).1 q⟩
    · simp only [if_neg hg] at ha
      have t0 : 0 ≤ t := by
        have : (0 : EReal) ≤ (t : EReal) := Above.le ha
        exact_mod_cast this
      have hlo : Above x.lo 0 := by
        rcases lt_trichotomy x.lo.v 0 with q | q | q
        · exact Or.inl (by simpa using q)
        · refine Or.inr ⟨by simpa using q, ?_⟩
          rcases hx.lf with f | f
          · exact f
          · exact absurd (Or.inr ⟨q, by rw [f]; norm_num⟩) hg
        · exact absurd (Or.inl q) hg
      exact ⟨t ^ 2, ⟨above_mono hlo (sq_nonneg t), up t0, by simp [hr]⟩, sq_nonneg t, (Real.sqrt_sq t0).symm⟩
  · rintro ⟨r, h, h0, rfl⟩
    exact C128_sqrt_mem x r h h0

/-- **C128**: for an interval of reals the logarithm is exact. -/
theorem C128_log_exact (x : Iv) (hx : Proper x) (hr : x.int = false) (t : ℝ) :
    Mem (logA x) t ↔ ∃ r, Mem x r ∧ 0 < r ∧ t = Real.log r := by
  constructor
  · intro h
    unfold logA at h
    by_cases h1 : leV x 0
    · rw [if_pos h1] at h; exact absurd h (mem_empty t)
    rw [if_neg h1, C54_setMaybeReal_mem] at h
    obtain ⟨ha, hb⟩ := h
    have hup : (0 : EReal) < x.up.v := not_not.1 h1
    have e : ∀ s : ℝ, 0 < s → logE s = ((Real.log s : ℝ) : EReal) ∧ (Real.log s < Real.log (Real.exp t) → s < Real.exp t) ∧
        (Real.log (Real.exp t) < Real.log s → Real.exp t < s) ∧ (Real.log s = Real.log (Real.exp t) → s = Real.exp t) := by
      intro s s0
      refine ⟨?_, fun q => (Real.log_lt_log_iff s0 (Real.exp_pos t)).1 q, fun q => (Real.log_lt_log_iff (Real.exp_pos t) s0).1 q,
        fun q => Real.log_injOn_pos s0 (Real.exp_pos t) q⟩
      show (if s = 0 then ⊥ else _) = _
      rw [if_neg s0.ne']
    have up : Below x.up (Real.exp t) := by
      refine below_app_iff (f := logE) (g := Real.log) hx.ubot (fun s hs => ?_) (by rw [Real.log_exp]; exact hb)
      have s0 : 0 < s := by rw [hs] at hup; exact_mod_cast hup
      exact ⟨(e s s0).1, (e s s0).2.2.1, (e s s0).2.2.2⟩
    have lo : Above x.lo (Real.exp t) := by
      rcases le_or_gt x.lo.v 0 with q | q
      · exact above_of_lt q (Real.exp_pos t)
      · rw [if_neg (not_not.2 (show gtV x 0 from Or.inl q))] at ha
        refine above_app_iff (f := logE) (g := Real.log) hx.ltop (fun s hs => ?_) (by rw [Real.log_exp]; exact ha)
        have s0 : 0 < s := by rw [hs] at q; exact_mod_cast q
        exact ⟨(e s s0).1, (e s s0).2.1, (e s s0).2.2.2⟩
    exact ⟨Real.exp t, ⟨lo, up, by simp [hr]⟩, Real.exp_pos t, (Real.log_exp t).symm⟩
  · rintro ⟨r, h, h0, rfl⟩
    exact C128_log_mem x r h h0

/-- **C128**: the hypotheses are met by the reals from 1 to 4. -/
theorem C128_nonvacuous : Proper (cl 1 4 false) ∧ Mem (cl 1 4 false) 4 ∧ Mem (sqrtA (cl 1 4 false)) 2 ∧ Mem (logA (cl 1 4 false)) (Real.log 4) ∧
    Mem (expA (cl 1 4 false)) (Real.exp 4) ∧ Proper (cl (-4) (-1) false) ∧ ∀ r, Mem (cl (-4) (-1) false) r → r < 0 := by
  have m : Mem (cl 1 4 false) 4 := by rw [cl_mem]; norm_num
  refine ⟨cl_proper_real _ _ (by norm_num), m, ?_, C128_log_mem _ _ m (by norm_num), C128_exp_mem _ _ m, cl_proper_real _ _ (by norm_num), ?_⟩
  · have := C128_sqrt_mem _ _ m (by norm_num)
    have e : Real.sqrt 4 = 2 := by
      rw [show (4 : ℝ) = 2 ^ 2 by norm_num, Real.sqrt_sq (by norm_num)]
    rwa [e] at this
  · intro r h
    have := ((cl_mem _ _ _ _).1 h).2.1
    linarith

end Purrs.Interval
