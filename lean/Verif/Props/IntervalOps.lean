import Verif.Props.Interval
import Mathlib.Data.Prod.Lex

/-!
# C54, continued: intersection, hull, inclusion, rounding, arithmetic
-/

namespace Purrs.Interval

open Classical

/-- Boundaries are ordered lexicographically by value and flag. -/
noncomputable def Bd.key (b : Bd) : EReal ×ₗ ℤ := toLex (b.v, b.f)

theorem Bd.lt_key (x y : Bd) : x.lt y ↔ x.key < y.key := by
  unfold Bd.lt Bd.key; rw [Prod.Lex.toLex_lt_toLex]
theorem Bd.gt_key (x y : Bd) : x.gt y ↔ y.key < x.key := by
  unfold Bd.gt Bd.key; rw [Prod.Lex.toLex_lt_toLex]
  constructor <;> rintro (h | ⟨h, h'⟩)
  · exact Or.inl h
  · exact Or.inr ⟨h.symm, h'⟩
  · exact Or.inl h
  · exact Or.inr ⟨h.symm, h'⟩
theorem Bd.le_key (x y : Bd) : x.le y ↔ x.key ≤ y.key := by
  unfold Bd.le; rw [Bd.gt_key, not_lt]
theorem Bd.ge_key (x y : Bd) : x.ge y ↔ y.key ≤ x.key := by
  unfold Bd.ge; rw [Bd.lt_key, not_lt]
theorem Bd.key_inj {x y : Bd} (h : x.key = y.key) : x = y := by
  unfold Bd.key at h
  have := toLex_inj.1 h
  ext
  · exact (Prod.mk.injEq _ _ _ _ ▸ this).1
  · exact (Prod.mk.injEq _ _ _ _ ▸ this).2

/-- Above a lower boundary. -/
def Above (b : Bd) (r : ℝ) : Prop := b.v < (r : EReal) ∨ (b.v = (r : EReal) ∧ b.f = 0)
/-- Below an upper boundary. -/
def Below (b : Bd) (r : ℝ) : Prop := (r : EReal) < b.v ∨ ((r : EReal) = b.v ∧ b.f = 0)

theorem mem_def (x : Iv) (r : ℝ) :
    Mem x r ↔ Above x.lo r ∧ Below x.up r ∧ (x.int = true → ∃ z : ℤ, r = z) := Iff.rfl

/-- Flags a lower boundary can have. -/
def LoOk (b : Bd) : Prop := b.f = 0 ∨ b.f = 1 ∨ (b.v = ⊤ ∧ b.f = -1)
/-- Flags an upper boundary can have. -/
def UpOk (b : Bd) : Prop := b.f = 0 ∨ b.f = -1 ∨ (b.v = ⊥ ∧ b.f = 1)

theorem above_key {b : Bd} (h : LoOk b) (r : ℝ) : Above b r ↔ b.key ≤ toLex ((r : EReal), (0 : ℤ)) := by
  unfold Above Bd.key
  rw [Prod.Lex.toLex_le_toLex]
  constructor
  · rintro (g | ⟨g, g'⟩)
    · exact Or.inl g
    · exact Or.inr ⟨g, g'.le⟩
  · rintro (g | ⟨g, g'⟩)
    · exact Or.inl g
    · simp only at g g'
      refine Or.inr ⟨g, ?_⟩
      rcases h with q | q | ⟨q, q'⟩
      · exact q
      · omega
      · rw [q] at g; exact absurd g.symm (EReal.coe_ne_top _)

theorem below_key {b : Bd} (h : UpOk b) (r : ℝ) : Below b r ↔ toLex ((r : EReal), (0 : ℤ)) ≤ b.key := by
  unfold Below Bd.key
  rw [Prod.Lex.toLex_le_toLex]
  constructor
  · rintro (g | ⟨g, g'⟩)
    · exact Or.inl g
    · exact Or.inr ⟨g, g'.ge⟩
  · rintro (g | ⟨g, g'⟩)
    · exact Or.inl g
    · simp only at g g'
      refine Or.inr ⟨g, ?_⟩
      rcases h with q | q | ⟨q, q'⟩
      · exact q
      · omega
      · rw [q] at g; exact absurd g (EReal.coe_ne_bot _)

/-! ## Tightening to the integers -/

@[simp] theorem flo_coe (r : ℝ) : flo (r : EReal) = ((⌊r⌋ : ℝ) : EReal) := rfl
@[simp] theorem flo_bot : flo ⊥ = ⊥ := rfl
@[simp] theorem flo_top : flo ⊤ = ⊤ := rfl
@[simp] theorem cei_coe (r : ℝ) : cei (r : EReal) = ((⌈r⌉ : ℝ) : EReal) := rfl
@[simp] theorem cei_bot : cei ⊥ = ⊥ := rfl
@[simp] theorem cei_top : cei ⊤ = ⊤ := rfl

theorem lceil_bot {b : Bd} (h : b.v = ⊥) : lceil b = b := by unfold lceil; rw [h]; rfl
theorem lceil_top {b : Bd} (h : b.v = ⊤) : lceil b = b := by unfold lceil; rw [h]; rfl
theorem lceil_coe {b : Bd} {r : ℝ} (h : b.v = r) :
    lceil b = if b.closed then ⟨cei r, b.f⟩ else ⟨((⌊r⌋ + 1 : ℝ) : EReal), 0⟩ := by
  unfold lceil; rw [h]; rfl
theorem ufloor_bot {b : Bd} (h : b.v = ⊥) : ufloor b = b := by unfold ufloor; rw [h]; rfl
theorem ufloor_top {b : Bd} (h : b.v = ⊤) : ufloor b = b := by unfold ufloor; rw [h]; rfl
theorem ufloor_coe {b : Bd} {r : ℝ} (h : b.v = r) :
    ufloor b = if b.closed then ⟨flo r, b.f⟩ else ⟨((⌈r⌉ - 1 : ℝ) : EReal), 0⟩ := by
  unfold ufloor; rw [h]; rfl

theorem closed_iff (b : Bd) : b.closed = true ↔ b.f = 0 := by simp [Bd.closed]

theorem above_coe {b : Bd} {s r : ℝ} (h : b.v = s) :
    Above b r ↔ s < r ∨ (s = r ∧ b.f = 0) := by
  unfold Above; rw [h]; simp [EReal.coe_lt_coe_iff]
theorem below_coe {b : Bd} {s r : ℝ} (h : b.v = s) :
    Below b r ↔ r < s ∨ (r = s ∧ b.f = 0) := by
  unfold Below; rw [h]; simp [EReal.coe_lt_coe_iff]

theorem above_lceil (b : Bd) (z : ℤ) : Above (lceil b) z ↔ Above b z := by
  induction h : b.v using EReal.rec with
  | bot => rw [lceil_bot h]
  | top => rw [lceil_top h]
  | coe s =>
    rw [lceil_coe h, above_coe h]
    split_ifs with hc
    · rw [closed_iff] at hc
      rw [above_coe (s := ⌈s⌉) rfl]
      simp only [hc, and_true]
      rw [← le_iff_lt_or_eq, ← le_iff_lt_or_eq]
      exact_mod_cast Int.ceil_le
    · rw [closed_iff] at hc
      rw [above_coe (s := (⌊s⌋ + 1 : ℝ)) rfl]
      simp only [and_true, hc, and_false, or_false]
      rw [← le_iff_lt_or_eq]
      have : ((⌊s⌋ : ℝ) + 1 ≤ z) ↔ (⌊s⌋ + 1 ≤ z) := by exact_mod_cast Iff.rfl
      rw [this, Int.add_one_le_iff, Int.floor_lt]

theorem below_ufloor (b : Bd) (z : ℤ) : Below (ufloor b) z ↔ Below b z := by
  induction h : b.v using EReal.rec with
  | bot => rw [ufloor_bot h]
  | top => rw [ufloor_top h]
  | coe s =>
    rw [ufloor_coe h, below_coe h]
    split_ifs with hc
    · rw [closed_iff] at hc
      rw [below_coe (s := ⌊s⌋) rfl]
      simp only [hc, and_true]
      rw [← le_iff_lt_or_eq, ← le_iff_lt_or_eq]
      exact_mod_cast Int.le_floor
    · rw [closed_iff] at hc
      rw [below_coe (s := (⌈s⌉ - 1 : ℝ)) rfl]
      simp only [and_true, hc, and_false, or_false]
      rw [← le_iff_lt_or_eq]
      have : ((z : ℝ) ≤ (⌈s⌉ : ℝ) - 1) ↔ (z ≤ ⌈s⌉ - 1) := by exact_mod_cast Iff.rfl
      rw [this, Int.le_sub_one_iff, Int.lt_ceil]

theorem lceil_ok {b : Bd} (h : LoOk b) : LoOk (lceil b) := by
  induction hv : b.v using EReal.rec with
  | bot => rwa [lceil_bot hv]
  | top => rwa [lceil_top hv]
  | coe s =>
    rw [lceil_coe hv]
    split_ifs with hc
    · left; exact (closed_iff b).1 hc
    · left; rfl

theorem ufloor_ok {b : Bd} (h : UpOk b) : UpOk (ufloor b) := by
  induction hv : b.v using EReal.rec with
  | bot => rwa [ufloor_bot hv]
  | top => rwa [ufloor_top hv]
  | coe s =>
    rw [ufloor_coe hv]
    split_ifs with hc
    · left; exact (closed_iff b).1 hc
    · left; rfl

/-- No real lies above a lower boundary and below a smaller upper one. -/
theorem not_between {l u : Bd} (hl : LoOk l) (hu : UpOk u) (h : l.gt u) (r : ℝ) :
    ¬ (Above l r ∧ Below u r) := by
  rintro ⟨h1, h2⟩
  rw [above_key hl] at h1
  rw [below_key hu] at h2
  rw [Bd.gt_key] at h
  exact absurd (lt_of_lt_of_le h h1) (not_lt.2 h2)

/-- **C54**: tightening to INTEGER keeps exactly the integers. -/
theorem C54_setInteger_mem (x : Iv) (hl : LoOk x.lo) (hu : UpOk x.up) (r : ℝ) :
    Mem x.setInteger r ↔ Above x.lo r ∧ Below x.up r ∧ ∃ z : ℤ, r = z := by
  unfold Iv.setInteger
  split_ifs with h
  · constructor
    · intro hm; exact absurd hm (mem_empty r)
    · rintro ⟨h1, h2, z, rfl⟩
      exact absurd ⟨(above_lceil _ _).2 h1, (below_ufloor _ _).2 h2⟩
        (not_between (lceil_ok hl) (ufloor_ok hu) h _)
  · rw [mem_def]
    constructor
    · rintro ⟨h1, h2, h3⟩
      obtain ⟨z, rfl⟩ := h3 rfl
      exact ⟨(above_lceil _ _).1 h1, (below_ufloor _ _).1 h2, z, rfl⟩
    · rintro ⟨h1, h2, z, rfl⟩
      exact ⟨(above_lceil _ _).2 h1, (below_ufloor _ _).2 h2, fun _ => ⟨z, rfl⟩⟩

/-- `set_maybe_real` does not change the set the two boundaries bound. -/
theorem C54_setMaybeReal_mem (x : Iv) (r : ℝ) :
    Mem x.setMaybeReal r ↔ Above x.lo r ∧ Below x.up r := by
  unfold Iv.setMaybeReal
  rw [mem_def]
  simp only [decide_eq_true_eq]
  constructor
  · rintro ⟨h1, h2, -⟩; exact ⟨h1, h2⟩
  · rintro ⟨h1, h2⟩
    refine ⟨h1, h2, ?_⟩
    rintro ⟨h3, z, hz⟩
    unfold Iv.onePoint at h3
    rw [← h3] at h2
    rw [above_coe hz] at h1
    rw [below_coe hz] at h2
    refine ⟨z, ?_⟩
    rcases h1 with g | g <;> rcases h2 with g' | g'
    · linarith
    · exact g'.1
    · exact g.1.symm
    · exact g'.1

/-! ## Intersection -/

theorem ok_lo {x : Iv} (h : Ok x) : LoOk x.lo := h.flags.1
theorem ok_up {x : Iv} (h : Ok x) : UpOk x.up := h.flags.2

/-- **C54**: `&=` is exact intersection. -/
theorem C54_inter_mem (x y : Iv) (hx : Ok x) (hy : Ok y) (r : ℝ) :
    Mem (inter x y) r ↔ Mem x r ∧ Mem y r := by
  have hl : LoOk (if y.lo.gt x.lo then y.lo else x.lo) := by
    split_ifs; exacts [ok_lo hy, ok_lo hx]
  have hu : UpOk (if y.up.lt x.up then y.up else x.up) := by
    split_ifs; exacts [ok_up hy, ok_up hx]
  have el : Above (if y.lo.gt x.lo then y.lo else x.lo) r ↔ Above x.lo r ∧ Above y.lo r := by
    rw [above_key hl, above_key (ok_lo hx), above_key (ok_lo hy)]
    split_ifs with h
    · rw [Bd.gt_key] at h
      exact ⟨fun g => ⟨h.le.trans g, g⟩, fun g => g.2⟩
    · rw [Bd.gt_key, not_lt] at h
      exact ⟨fun g => ⟨g, h.trans g⟩, fun g => g.1⟩
  have eu : Below (if y.up.lt x.up then y.up else x.up) r ↔ Below x.up r ∧ Below y.up r := by
    rw [below_key hu, below_key (ok_up hx), below_key (ok_up hy)]
    split_ifs with h
    · rw [Bd.lt_key] at h
      exact ⟨fun g => ⟨g.trans h.le, g⟩, fun g => g.2⟩
    · rw [Bd.lt_key, not_lt] at h
      exact ⟨fun g => ⟨g, g.trans h⟩, fun g => g.1⟩
  unfold inter
  simp only
  generalize (if y.lo.gt x.lo then y.lo else x.lo) = l at *
  generalize (if y.up.lt x.up then y.up else x.up) = u at *
  split_ifs with h1 h2
  · constructor
    · intro hm; exact absurd hm (mem_empty r)
    · rintro ⟨⟨a1, a2, -⟩, ⟨b1, b2, -⟩⟩
      exact absurd ⟨el.2 ⟨a1, b1⟩, eu.2 ⟨a2, b2⟩⟩ (not_between hl hu h2 r)
  · rw [C54_setMaybeReal_mem]
    simp only
    rw [el, eu]
    simp only [mem_def, h1.1, h1.2]
    simp only [Bool.false_eq_true, false_implies, and_true]
    tauto
  · rw [C54_setInteger_mem ⟨l, u, x.int⟩ hl hu]
    simp only
    rw [el, eu]
    simp only [mem_def]
    have : x.int = true ∨ y.int = true := by
      cases hx' : x.int <;> cases hy' : y.int <;> simp_all
    constructor
    · rintro ⟨⟨a1, b1⟩, ⟨a2, b2⟩, hz⟩
      exact ⟨⟨a1, a2, fun _ => hz⟩, ⟨b1, b2, fun _ => hz⟩⟩
    · rintro ⟨⟨a1, a2, a3⟩, ⟨b1, b2, b3⟩⟩
      refine ⟨⟨a1, b1⟩, ⟨a2, b2⟩, ?_⟩
      rcases this with g | g
      · exact a3 g
      · exact b3 g

/-! ## Normal form is kept -/

/-- Boundary requirements of a proper interval, apart from the order. -/
structure BdOk (l u : Bd) : Prop where
  lf : l.f = 0 ∨ l.f = 1
  uf : u.f = 0 ∨ u.f = -1
  lbot : l.v = ⊥ → l.f = 1
  utop : u.v = ⊤ → u.f = -1
  ltop : l.v ≠ ⊤
  ubot : u.v ≠ ⊥

theorem Proper.bdOk {x : Iv} (h : Proper x) : BdOk x.lo x.up :=
  ⟨h.lf, h.uf, h.lbot, h.utop, h.ltop, h.ubot⟩

theorem BdOk.loOk {l u : Bd} (h : BdOk l u) : LoOk l := by rcases h.lf with g | g <;> simp [LoOk, g]
theorem BdOk.upOk {l u : Bd} (h : BdOk l u) : UpOk u := by rcases h.uf with g | g <;> simp [UpOk, g]

theorem lceil_int {b : Bd} (h : b.v ≠ ⊤) :
    (lceil b).v = ⊥ ∨ (isInt (lceil b).v ∧ (lceil b).f = 0) := by
  induction hv : b.v using EReal.rec with
  | bot => left; rw [lceil_bot hv]; exact hv
  | top => exact absurd hv h
  | coe s =>
    right
    rw [lceil_coe hv]
    split_ifs with hc
    · exact ⟨⟨⌈s⌉, rfl⟩, (closed_iff b).1 hc⟩
    · exact ⟨⟨⌊s⌋ + 1, by push_cast; rfl⟩, rfl⟩

theorem ufloor_int {b : Bd} (h : b.v ≠ ⊥) :
    (ufloor b).v = ⊤ ∨ (isInt (ufloor b).v ∧ (ufloor b).f = 0) := by
  induction hv : b.v using EReal.rec with
  | top => left; rw [ufloor_top hv]; exact hv
  | bot => exact absurd hv h
  | coe s =>
    right
    rw [ufloor_coe hv]
    split_ifs with hc
    · exact ⟨⟨⌊s⌋, rfl⟩, (closed_iff b).1 hc⟩
    · exact ⟨⟨⌈s⌉ - 1, by push_cast; rfl⟩, rfl⟩

theorem isInt_ne {v : EReal} (h : isInt v) : v ≠ ⊤ ∧ v ≠ ⊥ := by
  obtain ⟨z, rfl⟩ := h
  exact ⟨EReal.coe_ne_top _, EReal.coe_ne_bot _⟩

theorem BdOk.round {l u : Bd} (h : BdOk l u) : BdOk (lceil l) (ufloor u) := by
  have a := lceil_int h.ltop
  have b := ufloor_int h.ubot
  refine ⟨?_, ?_, ?_, ?_, ?_, ?_⟩
  · rcases a with a | a
    · have : l.v = ⊥ := by
        induction hv : l.v using EReal.rec with
        | bot => rfl
        | top => exact absurd hv h.ltop
        | coe s =>
          rw [lceil_coe hv] at a
          split_ifs at a <;> exact absurd a (EReal.coe_ne_bot _)
      rw [lceil_bot this]; exact h.lf
    · exact Or.inl a.2
  · rcases b with b | b
    · have : u.v = ⊤ := by
        induction hv : u.v using EReal.rec with
        | top => rfl
        | bot => exact absurd hv h.ubot
        | coe s =>
          rw [ufloor_coe hv] at b
          split_ifs at b <;> exact absurd b (EReal.coe_ne_top _)
      rw [ufloor_top this]; exact h.uf
    · exact Or.inl b.2
  · intro hb
    have : l.v = ⊥ := by
      induction hv : l.v using EReal.rec with
      | bot => rfl
      | top => exact absurd hv h.ltop
      | coe s =>
        rw [lceil_coe hv] at hb
        split_ifs at hb <;> exact absurd hb (EReal.coe_ne_bot _)
    rw [lceil_bot this]; exact h.lbot this
  · intro hb
    have : u.v = ⊤ := by
      induction hv : u.v using EReal.rec with
      | top => rfl
      | bot => exact absurd hv h.ubot
      | coe s =>
        rw [ufloor_coe hv] at hb
        split_ifs at hb <;> exact absurd hb (EReal.coe_ne_top _)
    rw [ufloor_top this]; exact h.utop this
  · rcases a with a | a
    · rw [a]; exact bot_ne_top
    · exact (isInt_ne a.1).1
  · rcases b with b | b
    · rw [b]; exact top_ne_bot
    · exact (isInt_ne b.1).2

theorem setInteger_ok {x : Iv} (h : BdOk x.lo x.up) : Ok x.setInteger := by
  unfold Iv.setInteger
  split_ifs with hg
  · exact Or.inl rfl
  · right
    have hr := h.round
    exact ⟨hr.lf, hr.uf, hr.lbot, hr.utop, hr.ltop, hr.ubot, hg,
      fun _ => lceil_int h.ltop, fun _ => ufloor_int h.ubot, by simp⟩

theorem setMaybeReal_ok {x : Iv} (h : BdOk x.lo x.up) (ho : x.lo.le x.up) : Ok x.setMaybeReal := by
  right
  refine ⟨h.lf, h.uf, h.lbot, h.utop, h.ltop, h.ubot, ho, ?_, ?_, ?_⟩
  · intro hi
    simp only [Iv.setMaybeReal, decide_eq_true_eq] at hi
    refine Or.inr ⟨hi.2, ?_⟩
    have := congrArg Bd.f hi.1
    have h1 := h.lf
    have h2 := h.uf
    show x.lo.f = 0
    omega
  · intro hi
    simp only [Iv.setMaybeReal, decide_eq_true_eq] at hi
    have e := hi.1
    refine Or.inr ⟨?_, ?_⟩
    · have := hi.2; unfold Iv.onePoint at e; rw [e] at this; exact this
    · have := congrArg Bd.f e
      have h1 := h.lf
      have h2 := h.uf
      show x.up.f = 0
      omega
  · intro hi
    exact of_decide_eq_false hi

theorem empty_inter_lt {x y : Iv} (_ : Ok x) (hy : Ok y) (h : ¬ Proper x ∨ ¬ Proper y) (hx' : Ok x) :
    x = Iv.empty ∨ y = Iv.empty := by
  rcases h with h | h
  · exact Or.inl (hx'.resolve_right h)
  · exact Or.inr (hy.resolve_right h)

theorem inter_empty_left (y : Iv) (hy : Ok y) : inter Iv.empty y = Iv.empty := by
  have h1 : ¬ y.lo.gt Bd.max := by
    rintro (h | ⟨h, h'⟩)
    · exact absurd h (not_lt.2 le_top)
    · simp only [Bd.max] at h h'
      rcases hy with rfl | hy
      · simp [Iv.empty, Bd.max] at h'
      · exact hy.ltop h
  have h2 : ¬ y.up.lt Bd.min := by
    rintro (h | ⟨h, h'⟩)
    · exact absurd h (not_lt.2 bot_le)
    · simp only [Bd.min] at h h'
      rcases hy with rfl | hy
      · simp [Iv.empty, Bd.min] at h'
      · exact hy.ubot h
  unfold inter
  simp only [Iv.empty, h1, h2, if_false, Bool.true_eq_false, false_and]
  unfold Iv.setInteger
  simp only
  rw [lceil_top (b := Bd.max) rfl, ufloor_bot (b := Bd.min) rfl, if_pos]
  · rfl
  · left; simp [Bd.max, Bd.min]

theorem inter_empty_right (x : Iv) (hx : Ok x) : inter x Iv.empty = Iv.empty := by
  rcases hx with rfl | hx
  · exact inter_empty_left _ (Or.inl rfl)
  have h1 : Bd.max.gt x.lo := by
    left
    show x.lo.v < ⊤
    exact lt_top_iff_ne_top.2 hx.ltop
  have h2 : Bd.min.lt x.up := by
    left
    show ⊥ < x.up.v
    exact bot_lt_iff_ne_bot.2 hx.ubot
  unfold inter
  simp only [Iv.empty, h1, h2, if_true, Bool.true_eq_false, and_false, if_false]
  unfold Iv.setInteger
  simp only
  rw [lceil_top (b := Bd.max) rfl, ufloor_bot (b := Bd.min) rfl, if_pos]
  · rfl
  · left; simp [Bd.max, Bd.min]

/-- The intersection is again in normal form. -/
theorem C54_inter_ok (x y : Iv) (hx : Ok x) (hy : Ok y) : Ok (inter x y) := by
  rcases hx with rfl | hx'
  · rw [inter_empty_left y hy]; exact Or.inl rfl
  rcases hy with rfl | hy'
  · rw [inter_empty_right x (Or.inr hx')]; exact Or.inl rfl
  have hb : BdOk (if y.lo.gt x.lo then y.lo else x.lo) (if y.up.lt x.up then y.up else x.up) := by
    refine ⟨?_, ?_, ?_, ?_, ?_, ?_⟩ <;> split_ifs
    all_goals first
      | exact hx'.lf | exact hy'.lf | exact hx'.uf | exact hy'.uf
      | exact hx'.lbot | exact hy'.lbot | exact hx'.utop | exact hy'.utop
      | exact hx'.ltop | exact hy'.ltop | exact hx'.ubot | exact hy'.ubot
  unfold inter
  simp only
  generalize (if y.lo.gt x.lo then y.lo else x.lo) = l at *
  generalize (if y.up.lt x.up then y.up else x.up) = u at *
  split_ifs with h1 h2
  · exact Or.inl rfl
  · exact setMaybeReal_ok (x := ⟨l, u, x.int⟩) hb h2
  · exact setInteger_ok (x := ⟨l, u, x.int⟩) hb

/-- **C54**: two intervals meet according to `&&` exactly if they share a member. -/
theorem C54_meets_iff (x y : Iv) (hx : Ok x) (hy : Ok y) :
    meets x y ↔ ∃ r, Mem x r ∧ Mem y r := by
  unfold meets
  rw [C54_isEmpty_iff _ (C54_inter_ok x y hx hy)]
  push Not
  constructor
  · rintro ⟨r, hr⟩; exact ⟨r, (C54_inter_mem x y hx hy r).1 hr⟩
  · rintro ⟨r, hr⟩; exact ⟨r, (C54_inter_mem x y hx hy r).2 hr⟩

/-! ## Hull -/

/-- **C54**: `|=` contains both arguments. -/
theorem C54_join_mem (x y : Iv) (hx : Ok x) (hy : Ok y) (r : ℝ) (h : Mem x r ∨ Mem y r) :
    Mem (join x y) r := by
  have hl : LoOk (if y.lo.lt x.lo then y.lo else x.lo) := by
    split_ifs; exacts [ok_lo hy, ok_lo hx]
  have hu : UpOk (if y.up.gt x.up then y.up else x.up) := by
    split_ifs; exacts [ok_up hy, ok_up hx]
  rw [mem_def] at *
  unfold join
  simp only
  refine ⟨?_, ?_, ?_⟩
  · rw [above_key hl]
    have : (if y.lo.lt x.lo then y.lo else x.lo).key ≤ x.lo.key ∧
        (if y.lo.lt x.lo then y.lo else x.lo).key ≤ y.lo.key := by
      split_ifs with g
      · rw [Bd.lt_key] at g; exact ⟨g.le, le_rfl⟩
      · rw [Bd.lt_key, not_lt] at g; exact ⟨le_rfl, g⟩
    rcases h with h | h
    · exact this.1.trans ((above_key (ok_lo hx) r).1 h.1)
    · exact this.2.trans ((above_key (ok_lo hy) r).1 h.1)
  · rw [below_key hu]
    have : x.up.key ≤ (if y.up.gt x.up then y.up else x.up).key ∧
        y.up.key ≤ (if y.up.gt x.up then y.up else x.up).key := by
      split_ifs with g
      · rw [Bd.gt_key] at g; exact ⟨g.le, le_rfl⟩
      · rw [Bd.gt_key, not_lt] at g; exact ⟨le_rfl, g⟩
    rcases h with h | h
    · exact ((below_key (ok_up hx) r).1 h.2.1).trans this.1
    · exact ((below_key (ok_up hy) r).1 h.2.1).trans this.2
  · intro hi
    cases hyi : y.int
    · simp [hyi] at hi
    · simp only [hyi, Bool.true_eq_false, if_false] at hi
      rcases h with h | h
      · exact h.2.2 hi
      · exact h.2.2 hyi

/-! ## Inclusion and equality -/

/-- Proper intervals are compared by their boundaries. -/
theorem lo_le_of_subset {x y : Iv} (hx : Proper x) (hy : Proper y)
    (h : ∀ r, Mem x r → Mem y r) : y.lo.key ≤ x.lo.key := by
  by_contra hn
  rw [not_le, ← Bd.lt_key] at hn
  rcases hn with g | ⟨g, gf⟩
  · obtain ⟨s, h1, h2⟩ := EReal.lt_iff_exists_real_btwn.1 g
    obtain ⟨r, hr, hr'⟩ := hx.lo_near s h1
    have := (h r hr).1
    have h3 : (s : EReal) < r := by
      rcases this with q | q
      · exact h2.trans q
      · rw [← q.1]; exact h2
    have h4 : s < r := by exact_mod_cast h3
    linarith
  · have f1 : x.lo.f = 0 := by rcases hx.lf with q | q <;> rcases hy.lf with q' | q' <;> omega
    have f2 : y.lo.f = 1 := by rcases hx.lf with q | q <;> rcases hy.lf with q' | q' <;> omega
    induction hv : x.lo.v using EReal.rec with
    | bot => have := hx.lbot hv; omega
    | top => exact hx.ltop hv
    | coe t =>
      have := (h t (hx.lo_mem t hv f1)).1
      rw [← g, hv] at this
      rcases this with q | q
      · exact lt_irrefl _ q
      · omega

theorem up_le_of_subset {x y : Iv} (hx : Proper x) (hy : Proper y)
    (h : ∀ r, Mem x r → Mem y r) : x.up.key ≤ y.up.key := by
  by_contra hn
  rw [not_le, ← Bd.lt_key] at hn
  rcases hn with g | ⟨g, gf⟩
  · obtain ⟨s, h1, h2⟩ := EReal.lt_iff_exists_real_btwn.1 g
    obtain ⟨r, hr, hr'⟩ := hx.up_near s h2
    have := (h r hr).2.1
    have h3 : (r : EReal) < s := by
      rcases this with q | q
      · exact q.trans h1
      · rw [q.1]; exact h1
    have h4 : r < s := by exact_mod_cast h3
    linarith
  · have f1 : x.up.f = 0 := by rcases hx.uf with q | q <;> rcases hy.uf with q' | q' <;> omega
    have f2 : y.up.f = -1 := by rcases hx.uf with q | q <;> rcases hy.uf with q' | q' <;> omega
    induction hv : x.up.v using EReal.rec with
    | top => have := hx.utop hv; omega
    | bot => exact hx.ubot hv
    | coe t =>
      have := (h t (hx.up_mem t hv f1)).2.1
      rw [g, hv] at this
      rcases this with q | q
      · exact lt_irrefl _ q
      · omega

/-- A proper REAL interval has a member that is not an integer. -/
theorem exists_nonint {x : Iv} (hx : Proper x) (hi : x.int = false) :
    ∃ r, Mem x r ∧ ¬ ∃ z : ℤ, r = z := by
  have ho := (Bd.le_iff _ _).1 hx.ord
  rcases ho with ho | ⟨ho, hf⟩
  · obtain ⟨a, h1, h2⟩ := EReal.lt_iff_exists_real_btwn.1 ho
    obtain ⟨b, h3, h4⟩ := EReal.lt_iff_exists_real_btwn.1 h2
    have hab : a < b := by exact_mod_cast h3
    -- a point of (a, b) that is not an integer
    have : ∃ r, a ≤ r ∧ r ≤ b ∧ ¬ ∃ z : ℤ, r = z := by
      by_cases hz : ∃ z : ℤ, a = z
      · obtain ⟨z, rfl⟩ := hz
        refine ⟨min b (z + 1 / 2), ?_, min_le_left _ _, ?_⟩
        · exact le_min hab.le (by linarith)
        · rintro ⟨w, hw⟩
          have h5 : (z : ℝ) < w := by rw [← hw]; exact lt_min hab (by linarith)
          have h6 : (w : ℝ) ≤ z + 1 / 2 := by rw [← hw]; exact min_le_right _ _
          have h7 : z + 1 ≤ w := by exact_mod_cast h5
          have h8 : (z : ℝ) + 1 ≤ w := by exact_mod_cast h7
          linarith
      · exact ⟨a, le_rfl, hab.le, hz⟩
    obtain ⟨r, ha, hb, hr⟩ := this
    refine ⟨r, ⟨Or.inl (lt_of_lt_of_le h1 (by exact_mod_cast ha)),
      Or.inl (lt_of_le_of_lt (by exact_mod_cast hb) h4), by simp [hi]⟩, hr⟩
  · have f0 : x.lo.f = x.up.f := by
      rcases hx.lf with q | q <;> rcases hx.uf with q' | q' <;> omega
    have hop : x.onePoint := Bd.ext ho f0
    have hni : ¬ isInt x.lo.v := fun q => hx.real hi ⟨hop, q⟩
    induction hv : x.lo.v using EReal.rec with
    | top => exact absurd hv hx.ltop
    | bot => rw [hv] at ho; exact absurd ho.symm hx.ubot
    | coe t =>
      refine ⟨t, hx.lo_mem t hv (by rcases hx.lf with q | q <;> rcases hx.uf with q' | q' <;> omega), ?_⟩
      rintro ⟨z, rfl⟩
      exact hni ⟨z, hv⟩

theorem mem_of_keys {x y : Iv} (hx : Proper x) (hy : Proper y) (h1 : y.lo.key ≤ x.lo.key)
    (h2 : x.up.key ≤ y.up.key) (h3 : ¬ (x.int = false ∧ y.int = true)) (r : ℝ) (h : Mem x r) :
    Mem y r := by
  rw [mem_def] at *
  refine ⟨?_, ?_, ?_⟩
  · rw [above_key hy.bdOk.loOk]; exact h1.trans ((above_key hx.bdOk.loOk r).1 h.1)
  · rw [below_key hy.bdOk.upOk]; exact ((below_key hx.bdOk.upOk r).1 h.2.1).trans h2
  · intro hi
    cases hxi : x.int
    · exact absurd ⟨hxi, hi⟩ h3
    · exact h.2.2 hxi

/-- **C54**: `subset_eq` is exactly inclusion. -/
theorem C54_subsetEq_iff (x y : Iv) (hx : Ok x) (hy : Ok y) :
    subsetEq x y ↔ ∀ r, Mem x r → Mem y r := by
  unfold subsetEq
  rcases hx with rfl | hx
  · refine iff_of_true ?_ fun r h => absurd h (mem_empty r)
    have : ¬ (Iv.empty.int = false ∧ y.int = true) := by simp [Iv.empty]
    rw [if_neg this]
    refine ⟨?_, ?_⟩
    · rw [Bd.le_iff]
      rcases hy with rfl | hy
      · right; simp
      · left; exact bot_lt_iff_ne_bot.2 hy.ubot
    · rw [Bd.ge_iff]
      rcases hy with rfl | hy
      · right; simp
      · left; exact lt_top_iff_ne_top.2 hy.ltop
  rcases hy with rfl | hy
  · refine iff_of_false ?_ ?_
    · split_ifs with g
      · exact id
      · rintro ⟨h1, -⟩
        rw [Bd.le_iff] at h1
        rcases h1 with q | ⟨q, -⟩
        · exact absurd q (not_lt.2 bot_le)
        · exact hx.ubot q
    · intro h; obtain ⟨r, hr⟩ := hx.nonempty; exact mem_empty r (h r hr)
  split_ifs with g
  · refine iff_of_false id ?_
    intro h
    obtain ⟨r, hr, hn⟩ := exists_nonint hx g.1
    exact hn ((h r hr).2.2 g.2)
  · rw [Bd.le_key, Bd.ge_key]
    constructor
    · rintro ⟨h1, h2⟩ r hr
      exact mem_of_keys hx hy h2 h1 g r hr
    · intro h
      exact ⟨up_le_of_subset hx hy h, lo_le_of_subset hx hy h⟩

/-- **C54**: `==` holds exactly if both intervals have the same members. -/
theorem C54_eqIv_iff (x y : Iv) (hx : Ok x) (hy : Ok y) :
    eqIv x y ↔ ∀ r, Mem x r ↔ Mem y r := by
  constructor
  · rintro ⟨h1, h2, h3⟩ r
    have : x = y := Iv.ext h1 h2 h3
    rw [this]
  · intro h
    rcases hx with rfl | hx
    · rcases hy with rfl | hy
      · exact ⟨rfl, rfl, rfl⟩
      · obtain ⟨r, hr⟩ := hy.nonempty
        exact absurd ((h r).2 hr) (mem_empty r)
    rcases hy with rfl | hy
    · obtain ⟨r, hr⟩ := hx.nonempty
      exact absurd ((h r).1 hr) (mem_empty r)
    refine ⟨Bd.key_inj (le_antisymm ?_ ?_), Bd.key_inj (le_antisymm ?_ ?_), ?_⟩
    · exact lo_le_of_subset hy hx fun r hr => (h r).2 hr
    · exact lo_le_of_subset hx hy fun r hr => (h r).1 hr
    · exact up_le_of_subset hx hy fun r hr => (h r).1 hr
    · exact up_le_of_subset hy hx fun r hr => (h r).2 hr
    · cases hxi : x.int <;> cases hyi : y.int
      · rfl
      · obtain ⟨r, hr, hn⟩ := exists_nonint hx hxi
        exact absurd (((h r).1 hr).2.2 hyi) hn
      · obtain ⟨r, hr, hn⟩ := exists_nonint hy hyi
        exact absurd (((h r).2 hr).2.2 hxi) hn
      · rfl

/-- **C54**: `subset` is exactly strict inclusion. -/
theorem C54_subset_iff (x y : Iv) (hx : Ok x) (hy : Ok y) :
    subset x y ↔ (∀ r, Mem x r → Mem y r) ∧ ∃ r, Mem y r ∧ ¬ Mem x r := by
  rw [← C54_subsetEq_iff x y hx hy]
  have hstrict : (∃ r, Mem y r ∧ ¬ Mem x r) ↔ ¬ subsetEq y x := by
    rw [C54_subsetEq_iff y x hy hx]; push Not; rfl
  rw [hstrict]
  unfold subset subsetEq
  cases hxi : x.int <;> cases hyi : y.int
  · simp only [Bool.false_eq_true, if_false, if_true, and_false, Bd.le_key, Bd.ge_key, Bd.lt_key, Bd.gt_key]
    constructor
    · rintro (⟨a, b⟩ | ⟨a, b⟩)
      · exact ⟨⟨a.le, b⟩, fun q => absurd q.1 (not_le.2 a)⟩
      · exact ⟨⟨a, b.le⟩, fun q => absurd q.2 (not_le.2 b)⟩
    · rintro ⟨⟨a, b⟩, c⟩
      by_cases g : y.up.key ≤ x.up.key
      · right; refine ⟨a, not_le.1 fun q => c ⟨g, q⟩⟩
      · left; exact ⟨not_le.1 g, b⟩
  · simp
  · simp [Bd.le_key, Bd.ge_key]
  · simp only [Bool.true_eq_false, if_false, false_and, Bd.le_key, Bd.ge_key, Bd.lt_key, Bd.gt_key]
    constructor
    · rintro (⟨a, b⟩ | ⟨a, b⟩)
      · exact ⟨⟨a.le, b⟩, fun q => absurd q.1 (not_le.2 a)⟩
      · exact ⟨⟨a, b.le⟩, fun q => absurd q.2 (not_le.2 b)⟩
    · rintro ⟨⟨a, b⟩, c⟩
      by_cases g : y.up.key ≤ x.up.key
      · right; refine ⟨a, not_le.1 fun q => c ⟨g, q⟩⟩
      · left; exact ⟨not_le.1 g, b⟩

/-- **C54**: `|=` is the least interval containing both (any interval in normal form that contains both
contains their hull). -/
theorem C54_join_least (x y z : Iv) (hx : Proper x) (hy : Proper y) (hz : Proper z)
    (h1 : ∀ r, Mem x r → Mem z r) (h2 : ∀ r, Mem y r → Mem z r) (r : ℝ) (h : Mem (join x y) r) :
    Mem z r := by
  rw [mem_def] at h
  have hl : LoOk (if y.lo.lt x.lo then y.lo else x.lo) := by
    split_ifs; exacts [hy.bdOk.loOk, hx.bdOk.loOk]
  have hu : UpOk (if y.up.gt x.up then y.up else x.up) := by
    split_ifs; exacts [hy.bdOk.upOk, hx.bdOk.upOk]
  rw [mem_def]
  refine ⟨?_, ?_, ?_⟩
  · rw [above_key hz.bdOk.loOk]
    refine le_trans ?_ ((above_key hl r).1 h.1)
    split_ifs
    · exact lo_le_of_subset hy hz h2
    · exact lo_le_of_subset hx hz h1
  · rw [below_key hz.bdOk.upOk]
    refine le_trans ((below_key hu r).1 h.2.1) ?_
    split_ifs
    · exact up_le_of_subset hy hz h2
    · exact up_le_of_subset hx hz h1
  · intro hi
    apply h.2.2
    have a : x.int = true := by
      cases hxi : x.int
      · obtain ⟨s, hs, hn⟩ := exists_nonint hx hxi
        exact absurd ((h1 s hs).2.2 hi) hn
      · rfl
    have b : y.int = true := by
      cases hyi : y.int
      · obtain ⟨s, hs, hn⟩ := exists_nonint hy hyi
        exact absurd ((h2 s hs).2.2 hi) hn
      · rfl
    simp [join, a, b]

end Purrs.Interval
