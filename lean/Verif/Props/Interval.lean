import Verif.Model.Interval
import Mathlib.Tactic.Linarith
import Mathlib.Tactic.NormNum
import Mathlib.Tactic.Push

/-!
# C54: interval operations

Specification: the real numbers an interval stands for.
-/

namespace Purrs.Interval

open Classical

/-- **Specification.** The set of reals an interval denotes: above the lower boundary (or on it if it
is closed), below the upper one (or on it if closed), and an integer if the interval is INTEGER. -/
def Mem (x : Iv) (r : ℝ) : Prop :=
  (x.lo.v < (r : EReal) ∨ (x.lo.v = (r : EReal) ∧ x.lo.f = 0)) ∧
  ((r : EReal) < x.up.v ∨ ((r : EReal) = x.up.v ∧ x.up.f = 0)) ∧
  (x.int = true → ∃ z : ℤ, r = z)

/-- Non-empty intervals in the normal form every constructor and operation establishes. -/
structure Proper (x : Iv) : Prop where
  lf : x.lo.f = 0 ∨ x.lo.f = 1
  uf : x.up.f = 0 ∨ x.up.f = -1
  lbot : x.lo.v = ⊥ → x.lo.f = 1
  utop : x.up.v = ⊤ → x.up.f = -1
  ltop : x.lo.v ≠ ⊤
  ubot : x.up.v ≠ ⊥
  ord : x.lo.le x.up
  lint : x.int = true → x.lo.v = ⊥ ∨ (isInt x.lo.v ∧ x.lo.f = 0)
  uint : x.int = true → x.up.v = ⊤ ∨ (isInt x.up.v ∧ x.up.f = 0)
  real : x.int = false → ¬ (x.onePoint ∧ isInt x.lo.v)

/-- What `ok()` accepts, with the normal form of the boundaries. -/
def Ok (x : Iv) : Prop := x = Iv.empty ∨ Proper x

theorem Bd.le_iff (x y : Bd) : x.le y ↔ x.v < y.v ∨ (x.v = y.v ∧ x.f ≤ y.f) := by
  unfold Bd.le Bd.gt
  constructor
  · intro h
    push Not at h
    rcases lt_or_eq_of_le h.1 with h1 | h1
    · exact Or.inl h1
    · exact Or.inr ⟨h1, h.2 h1⟩
  · rintro (h | ⟨h, h'⟩) (g | ⟨g, g'⟩)
    · exact absurd (lt_trans h g) (lt_irrefl _)
    · rw [g] at h; exact lt_irrefl _ h
    · rw [h] at g; exact lt_irrefl _ g
    · omega

theorem Bd.ge_iff (x y : Bd) : x.ge y ↔ y.v < x.v ∨ (x.v = y.v ∧ y.f ≤ x.f) := by
  have : x.ge y ↔ y.le x := by
    unfold Bd.ge Bd.le Bd.lt Bd.gt
    constructor <;> intro h h' <;> apply h <;> rcases h' with h' | ⟨h', h''⟩
    · exact Or.inl h'
    · exact Or.inr ⟨h'.symm, h''⟩
    · exact Or.inl h'
    · exact Or.inr ⟨h'.symm, h''⟩
  rw [this, Bd.le_iff]
  constructor <;> rintro (h | ⟨h, h'⟩)
  · exact Or.inl h
  · exact Or.inr ⟨h.symm, h'⟩
  · exact Or.inl h
  · exact Or.inr ⟨h.symm, h'⟩

theorem Bd.gt_iff (x y : Bd) : x.gt y ↔ y.v < x.v ∨ (x.v = y.v ∧ y.f < x.f) := Iff.rfl
theorem Bd.lt_iff (x y : Bd) : x.lt y ↔ x.v < y.v ∨ (x.v = y.v ∧ x.f < y.f) := Iff.rfl

theorem Bd.not_le (x y : Bd) : ¬ x.le y ↔ x.gt y := not_not
theorem Bd.not_gt (x y : Bd) : ¬ x.gt y ↔ x.le y := Iff.rfl

theorem mem_empty (r : ℝ) : ¬ Mem Iv.empty r := by
  rintro ⟨h, -, -⟩
  simp [Iv.empty, Bd.max] at h

/-! ## Members near the ends -/

theorem Proper.up_near {x : Iv} (h : Proper x) (s : ℝ) (hs : (s : EReal) < x.up.v) :
    ∃ r, Mem x r ∧ s < r := by
  have hord := (Bd.le_iff _ _).1 h.ord
  rcases hx : x.int with _ | _
  · -- REAL
    -- choose r between max s lo and up
    have key : ∃ r : ℝ, x.lo.v < r ∧ (r : EReal) < x.up.v ∧ s < r ∨
        (x.lo.v = r ∧ (r : EReal) = x.up.v ∧ x.lo.f = 0 ∧ x.up.f = 0 ∧ s < r) := by
      rcases hord with ho | ⟨ho, hf⟩
      · obtain ⟨r, h1, h2⟩ := EReal.lt_iff_exists_real_btwn.1 (max_lt ho hs)
        refine ⟨r, Or.inl ⟨lt_of_le_of_lt (le_max_left _ _) h1, h2, ?_⟩⟩
        exact_mod_cast lt_of_le_of_lt (le_max_right x.lo.v (s : EReal)) h1
      · have hv1 := h.ltop
        have hv2 := h.ubot
        rw [← ho] at hv2
        lift x.lo.v to ℝ using ⟨hv1, hv2⟩ with t ht
        refine ⟨t, Or.inr ⟨rfl, ho, ?_, ?_, ?_⟩⟩
        · rcases h.lf with g | g <;> rcases h.uf with g' | g' <;> omega
        · rcases h.lf with g | g <;> rcases h.uf with g' | g' <;> omega
        · rw [← ho] at hs; exact_mod_cast hs
    obtain ⟨r, ⟨h1, h2, h3⟩ | ⟨h1, h2, h3, h4, h5⟩⟩ := key
    · exact ⟨r, ⟨Or.inl h1, Or.inl h2, by simp [hx]⟩, h3⟩
    · exact ⟨r, ⟨Or.inr ⟨h1, h3⟩, Or.inr ⟨h2, h4⟩, by simp [hx]⟩, h5⟩
  · -- INTEGER
    rcases h.uint hx with hu | ⟨⟨z, hz⟩, hf⟩
    · -- unbounded above
      have : ∃ z : ℤ, x.lo.v < ((z : ℝ) : EReal) ∧ s < z := by
        have hl := h.ltop
        induction hlo : x.lo.v using EReal.rec with
        | bot => exact ⟨⌈s⌉ + 1, EReal.bot_lt_coe _, by push_cast; linarith [Int.le_ceil s]⟩
        | top => exact absurd hlo hl
        | coe t =>
          refine ⟨⌈max s t⌉ + 1, ?_, ?_⟩
          · rw [EReal.coe_lt_coe_iff]
            push_cast
            linarith [Int.le_ceil (max s t), le_max_right s t]
          · push_cast
            linarith [Int.le_ceil (max s t), le_max_left s t]
      obtain ⟨z, h1, h2⟩ := this
      exact ⟨z, ⟨Or.inl h1, Or.inl (hu ▸ EReal.coe_lt_top _), fun _ => ⟨z, rfl⟩⟩, h2⟩
    · refine ⟨z, ⟨?_, Or.inr ⟨hz.symm, hf⟩, fun _ => ⟨z, rfl⟩⟩, ?_⟩
      · rcases hord with ho | ⟨ho, hf'⟩
        · left; rw [← hz]; exact ho
        · right
          refine ⟨ho.trans hz, ?_⟩
          rcases h.lf with g | g <;> omega
      · rw [hz] at hs; exact_mod_cast hs

theorem Proper.lo_near {x : Iv} (h : Proper x) (s : ℝ) (hs : x.lo.v < (s : EReal)) :
    ∃ r, Mem x r ∧ r < s := by
  have hord := (Bd.le_iff _ _).1 h.ord
  rcases hx : x.int with _ | _
  · have key : ∃ r : ℝ, x.lo.v < r ∧ (r : EReal) < x.up.v ∧ r < s ∨
        (x.lo.v = r ∧ (r : EReal) = x.up.v ∧ x.lo.f = 0 ∧ x.up.f = 0 ∧ r < s) := by
      rcases hord with ho | ⟨ho, hf⟩
      · obtain ⟨r, h1, h2⟩ := EReal.lt_iff_exists_real_btwn.1 (lt_min ho hs)
        refine ⟨r, Or.inl ⟨h1, lt_of_lt_of_le h2 (min_le_left _ _), ?_⟩⟩
        exact_mod_cast lt_of_lt_of_le h2 (min_le_right x.up.v (s : EReal))
      · have hv1 := h.ltop
        have hv2 := h.ubot
        rw [← ho] at hv2
        lift x.lo.v to ℝ using ⟨hv1, hv2⟩ with t ht
        refine ⟨t, Or.inr ⟨rfl, ho, ?_, ?_, ?_⟩⟩
        · rcases h.lf with g | g <;> rcases h.uf with g' | g' <;> omega
        · rcases h.lf with g | g <;> rcases h.uf with g' | g' <;> omega
        · exact_mod_cast hs
    obtain ⟨r, ⟨h1, h2, h3⟩ | ⟨h1, h2, h3, h4, h5⟩⟩ := key
    · exact ⟨r, ⟨Or.inl h1, Or.inl h2, by simp [hx]⟩, h3⟩
    · exact ⟨r, ⟨Or.inr ⟨h1, h3⟩, Or.inr ⟨h2, h4⟩, by simp [hx]⟩, h5⟩
  · rcases h.lint hx with hu | ⟨⟨z, hz⟩, hf⟩
    · have : ∃ z : ℤ, ((z : ℝ) : EReal) < x.up.v ∧ z < s := by
        have hl := h.ubot
        induction hlo : x.up.v using EReal.rec with
        | top => exact ⟨⌊s⌋ - 1, EReal.coe_lt_top _, by push_cast; linarith [Int.floor_le s]⟩
        | bot => exact absurd hlo hl
        | coe t =>
          refine ⟨⌊min s t⌋ - 1, ?_, ?_⟩
          · rw [EReal.coe_lt_coe_iff]
            push_cast
            linarith [Int.floor_le (min s t), min_le_right s t]
          · push_cast
            linarith [Int.floor_le (min s t), min_le_left s t]
      obtain ⟨z, h1, h2⟩ := this
      exact ⟨z, ⟨Or.inl (hu ▸ EReal.bot_lt_coe _), Or.inl h1, fun _ => ⟨z, rfl⟩⟩, h2⟩
    · refine ⟨z, ⟨Or.inr ⟨hz, hf⟩, ?_, fun _ => ⟨z, rfl⟩⟩, ?_⟩
      · rcases hord with ho | ⟨ho, hf'⟩
        · left; rw [← hz]; exact ho
        · right
          refine ⟨hz.symm.trans ho, ?_⟩
          rcases h.uf with g | g <;> omega
      · rw [hz] at hs; exact_mod_cast hs

theorem Proper.nonempty {x : Iv} (h : Proper x) : ∃ r, Mem x r := by
  have hb := h.ubot
  induction hu : x.up.v using EReal.rec with
  | bot => exact absurd hu hb
  | top => obtain ⟨r, hr, -⟩ := h.up_near 0 (by rw [hu]; exact EReal.coe_lt_top _); exact ⟨r, hr⟩
  | coe t =>
    obtain ⟨r, hr, -⟩ := h.up_near (t - 1) (by
      rw [hu, EReal.coe_lt_coe_iff]; linarith)
    exact ⟨r, hr⟩

theorem Proper.up_mem {x : Iv} (h : Proper x) (t : ℝ) (ht : x.up.v = t) (hf : x.up.f = 0) :
    Mem x t := by
  have hord := (Bd.le_iff _ _).1 h.ord
  refine ⟨?_, Or.inr ⟨ht.symm, hf⟩, ?_⟩
  · rcases hord with ho | ⟨ho, hf'⟩
    · left; rw [← ht]; exact ho
    · right; refine ⟨ho.trans ht, ?_⟩; rcases h.lf with g | g <;> omega
  · intro hi
    rcases h.uint hi with hu | ⟨⟨z, hz⟩, -⟩
    · rw [ht] at hu; exact absurd hu (EReal.coe_ne_top _)
    · rw [ht] at hz; exact ⟨z, by exact_mod_cast hz⟩

theorem Proper.lo_mem {x : Iv} (h : Proper x) (t : ℝ) (ht : x.lo.v = t) (hf : x.lo.f = 0) :
    Mem x t := by
  have hord := (Bd.le_iff _ _).1 h.ord
  refine ⟨Or.inr ⟨ht, hf⟩, ?_, ?_⟩
  · rcases hord with ho | ⟨ho, hf'⟩
    · left; rw [← ht]; exact ho
    · right; refine ⟨ht.symm.trans ho, ?_⟩; rcases h.uf with g | g <;> omega
  · intro hi
    rcases h.lint hi with hu | ⟨⟨z, hz⟩, -⟩
    · rw [ht] at hu; exact absurd hu (EReal.coe_ne_bot _)
    · rw [ht] at hz; exact ⟨z, by exact_mod_cast hz⟩

/-! ## Emptiness -/

theorem Proper.not_isEmpty {x : Iv} (h : Proper x) : ¬ x.isEmpty := h.ord

/-- **C54**: the emptiness test is exact. -/
theorem C54_isEmpty_iff (x : Iv) (h : Ok x) : x.isEmpty ↔ ∀ r, ¬ Mem x r := by
  rcases h with rfl | h
  · constructor
    · intro _ r; exact mem_empty r
    · intro _; left; simp [Iv.empty, Bd.max, Bd.min]
  · constructor
    · intro he; exact absurd he h.not_isEmpty
    · intro he; obtain ⟨r, hr⟩ := h.nonempty; exact absurd hr (he r)

/-! ## Comparisons -/

/-- **C54**: `lt(x, y)` means that every member of `x` is below every member of `y`. -/
theorem C54_lt_sound (x y : Iv) (h : lt x y) : ∀ a b, Mem x a → Mem y b → a < b := by
  rintro a b ⟨-, ha, -⟩ ⟨hb, -, -⟩
  have : (a : EReal) < b := by
    rcases h with h | ⟨h, hf⟩
    · have ha' : (a : EReal) ≤ x.up.v := by rcases ha with g | g; exacts [g.le, g.1.le]
      have hb' : y.lo.v ≤ (b : EReal) := by rcases hb with g | g; exacts [g.le, g.1.le]
      exact lt_of_le_of_lt ha' (lt_of_lt_of_le h hb')
    · rcases ha with ha | ha
      · have hb' : y.lo.v ≤ (b : EReal) := by rcases hb with g | g; exacts [g.le, g.1.le]
        exact lt_of_lt_of_le ha (h ▸ hb')
      · rcases hb with hb | hb
        · rw [ha.1, h]; exact hb
        · omega
  exact_mod_cast this

/-- **C54**: and it holds whenever that is so, for non-empty intervals. -/
theorem C54_lt_iff (x y : Iv) (hx : Proper x) (hy : Proper y) :
    lt x y ↔ ∀ a b, Mem x a → Mem y b → a < b := by
  refine ⟨C54_lt_sound x y, fun H => ?_⟩
  by_contra hn
  unfold lt Bd.lt at hn
  push Not at hn
  obtain ⟨h1, h2⟩ := hn
  -- y.lo.v ≤ x.up.v
  rcases lt_or_eq_of_le h1 with h1 | h1
  · obtain ⟨s, hs1, hs2⟩ := EReal.lt_iff_exists_real_btwn.1 h1
    obtain ⟨a, ha, ha'⟩ := hx.up_near s hs2
    obtain ⟨b, hb, hb'⟩ := hy.lo_near s hs1
    have := H a b ha hb
    linarith
  · have hf := h2 h1.symm
    have f1 : x.up.f = 0 := by rcases hx.uf with g | g <;> rcases hy.lf with g' | g' <;> omega
    have f2 : y.lo.f = 0 := by rcases hx.uf with g | g <;> rcases hy.lf with g' | g' <;> omega
    have n1 := hx.ubot
    have n2 := hy.ltop
    rw [h1] at n2
    obtain ⟨t, ht⟩ : ∃ t : ℝ, x.up.v = t := by
      lift x.up.v to ℝ using ⟨n2, n1⟩ with t ht
      exact ⟨t, rfl⟩
    have := H t t (hx.up_mem t ht f1) (hy.lo_mem t (h1.trans ht) f2)
    exact lt_irrefl _ this

/-- **C54**: `le`. -/
theorem C54_le_sound (x y : Iv) (h : le x y) : ∀ a b, Mem x a → Mem y b → a ≤ b := by
  rintro a b ⟨-, ha, -⟩ ⟨hb, -, -⟩
  have h' : x.up.v ≤ y.lo.v := not_lt.1 h
  have ha' : (a : EReal) ≤ x.up.v := by rcases ha with g | g; exacts [g.le, g.1.le]
  have hb' : y.lo.v ≤ (b : EReal) := by rcases hb with g | g; exacts [g.le, g.1.le]
  have := ha'.trans (h'.trans hb')
  exact_mod_cast this

theorem C54_le_iff (x y : Iv) (hx : Proper x) (hy : Proper y) :
    le x y ↔ ∀ a b, Mem x a → Mem y b → a ≤ b := by
  refine ⟨C54_le_sound x y, fun H => ?_⟩
  intro h1
  obtain ⟨s, hs1, hs2⟩ := EReal.lt_iff_exists_real_btwn.1 h1
  obtain ⟨a, ha, ha'⟩ := hx.up_near s hs2
  obtain ⟨b, hb, hb'⟩ := hy.lo_near s hs1
  have := H a b ha hb
  linarith

/-- **C54**: `eq`. -/
theorem C54_eq_iff (x y : Iv) (hx : Proper x) (hy : Proper y) :
    eq x y ↔ ∀ a b, Mem x a → Mem y b → a = b := by
  unfold eq ge
  rw [C54_le_iff x y hx hy, C54_le_iff y x hy hx]
  constructor
  · rintro ⟨h1, h2⟩ a b ha hb
    exact le_antisymm (h1 a b ha hb) (h2 b a hb ha)
  · intro h
    exact ⟨fun a b ha hb => (h a b ha hb).le, fun b a hb ha => (h a b ha hb).ge⟩

/-- **C54**: `ne` is sound. -/
theorem C54_ne_sound (x y : Iv) (h : ne x y) : ∀ a b, Mem x a → Mem y b → a ≠ b := by
  intro a b ha hb
  rcases h with h | h
  · exact (C54_lt_sound x y h a b ha hb).ne
  · exact (C54_lt_sound y x h b a hb ha).ne'

/-- Resolution of a three-valued answer: what ALWAYS and NEVER promise. -/
def Promise (t : Bool3) (x y : Iv) (R : ℝ → ℝ → Prop) : Prop :=
  (t = .always → ∀ a b, Mem x a → Mem y b → R a b) ∧
  (t = .never → ∀ a b, Mem x a → Mem y b → ¬ R a b)

theorem tri_promise (p q : Prop) (x y : Iv) (R : ℝ → ℝ → Prop)
    (hp : p → ∀ a b, Mem x a → Mem y b → R a b)
    (hq : q → ∀ a b, Mem x a → Mem y b → ¬ R a b) : Promise (tri p q) x y R := by
  unfold Promise tri
  constructor
  · intro h
    split_ifs at h with h1
    exact hp h1
  · intro h
    split_ifs at h with h1 h2
    exact hq h2

/-- **C54**: the three-valued comparisons never lie. -/
theorem C54_three_valued (x y : Iv) :
    Promise (lt3 x y) x y (· < ·) ∧ Promise (gt3 x y) x y (· > ·) ∧
    Promise (le3 x y) x y (· ≤ ·) ∧ Promise (ge3 x y) x y (· ≥ ·) ∧
    Promise (eq3 x y) x y (· = ·) ∧ Promise (ne3 x y) x y (· ≠ ·) := by
  have hlt := C54_lt_sound x y
  have hgt := C54_lt_sound y x
  have hle := C54_le_sound x y
  have hge := C54_le_sound y x
  refine ⟨tri_promise _ _ _ _ _ hlt fun h a b ha hb => not_lt.2 (hge h b a hb ha),
    tri_promise _ _ _ _ _ (fun h a b ha hb => hgt h b a hb ha)
      fun h a b ha hb => not_lt.2 (hle h a b ha hb),
    tri_promise _ _ _ _ _ hle fun h a b ha hb => not_le.2 (hgt h b a hb ha),
    tri_promise _ _ _ _ _ (fun h a b ha hb => hge h b a hb ha)
      fun h a b ha hb => not_le.2 (hlt h a b ha hb),
    tri_promise _ _ _ _ _ (fun h a b ha hb => le_antisymm (hle h.1 a b ha hb) (hge h.2 b a hb ha))
      (C54_ne_sound x y),
    tri_promise _ _ _ _ _ (C54_ne_sound x y)
      fun h a b ha hb => not_not.2 (le_antisymm (hle h.1 a b ha hb) (hge h.2 b a hb ha))⟩

/-- **C54**: comparisons with one value. -/
theorem C54_value_comparisons (x : Iv) (y : ℝ) :
    (ltV x y → ∀ a, Mem x a → a < y) ∧ (gtV x y → ∀ a, Mem x a → a > y) ∧
    (leV x y → ∀ a, Mem x a → a ≤ y) ∧ (geV x y → ∀ a, Mem x a → a ≥ y) := by
  refine ⟨?_, ?_, ?_, ?_⟩
  · rintro (h | ⟨h, hf⟩) a ⟨-, ha, -⟩
    · have : (a : EReal) < y := by
        rcases ha with g | g
        · exact g.trans h
        · rw [g.1]; exact h
      exact_mod_cast this
    · have : (a : EReal) < y := by
        rcases ha with g | g
        · rw [← h]; exact g
        · omega
      exact_mod_cast this
  · rintro (h | ⟨h, hf⟩) a ⟨ha, -, -⟩
    · have : (y : EReal) < a := by
        rcases ha with g | g
        · exact h.trans g
        · rw [← g.1]; exact h
      exact_mod_cast this
    · have : (y : EReal) < a := by
        rcases ha with g | g
        · rw [← h]; exact g
        · omega
      exact_mod_cast this
  · rintro h a ⟨-, ha, -⟩
    have h' : x.up.v ≤ y := not_lt.1 h
    have ha' : (a : EReal) ≤ x.up.v := by rcases ha with g | g; exacts [g.le, g.1.le]
    exact_mod_cast ha'.trans h'
  · rintro h a ⟨ha, -, -⟩
    have h' : (y : EReal) ≤ x.lo.v := not_lt.1 h
    have ha' : x.lo.v ≤ (a : EReal) := by rcases ha with g | g; exacts [g.le, g.1.le]
    exact_mod_cast h'.trans ha'

/-- Boundary flags of the four kinds a boundary in use can have. -/
theorem Ok.flags {x : Iv} (h : Ok x) :
    (x.lo.f = 0 ∨ x.lo.f = 1 ∨ (x.lo.v = ⊤ ∧ x.lo.f = -1)) ∧
    (x.up.f = 0 ∨ x.up.f = -1 ∨ (x.up.v = ⊥ ∧ x.up.f = 1)) := by
  rcases h with rfl | h
  · exact ⟨Or.inr (Or.inr ⟨rfl, rfl⟩), Or.inr (Or.inr ⟨rfl, rfl⟩)⟩
  · refine ⟨?_, ?_⟩
    · rcases h.lf with g | g <;> simp [g]
    · rcases h.uf with g | g <;> simp [g]

/-- **C54**: `x && v` is membership. -/
theorem C54_hasV_iff (x : Iv) (h : Ok x) (r : ℝ) : hasV x r ↔ Mem x r := by
  obtain ⟨hl, hu⟩ := h.flags
  unfold hasV Mem Bd.leV Bd.geV Bd.gtV Bd.ltV
  have e1 : (¬ (x.lo.v > (r : EReal) ∨ x.lo.v = r ∧ x.lo.f > 0)) ↔
      (x.lo.v < (r : EReal) ∨ (x.lo.v = (r : EReal) ∧ x.lo.f = 0)) := by
    constructor
    · intro hn
      push Not at hn
      rcases lt_or_eq_of_le hn.1 with g | g
      · exact Or.inl g
      · refine Or.inr ⟨g, ?_⟩
        have := hn.2 g
        rcases hl with q | q | q
        · exact q
        · omega
        · rw [q.1] at g; exact absurd g.symm (EReal.coe_ne_top _)
    · rintro (g | ⟨g, g'⟩) (q | ⟨q, q'⟩)
      · exact lt_asymm g q
      · rw [q] at g; exact lt_irrefl _ g
      · rw [g] at q; exact lt_irrefl _ q
      · omega
  have e2 : (¬ (x.up.v < (r : EReal) ∨ x.up.v = r ∧ x.up.f < 0)) ↔
      ((r : EReal) < x.up.v ∨ ((r : EReal) = x.up.v ∧ x.up.f = 0)) := by
    constructor
    · intro hn
      push Not at hn
      rcases lt_or_eq_of_le hn.1 with g | g
      · exact Or.inl g
      · refine Or.inr ⟨g, ?_⟩
        have := hn.2 g.symm
        rcases hu with q | q | q
        · exact q
        · omega
        · rw [q.1] at g; exact absurd g (EReal.coe_ne_bot _)
    · rintro (g | ⟨g, g'⟩) (q | ⟨q, q'⟩)
      · exact lt_asymm g q
      · rw [q] at g; exact lt_irrefl _ g
      · rw [g] at q; exact lt_irrefl _ q
      · omega
  rw [e1, e2]
  have e3 : (x.int = false ∨ isInt (r : EReal)) ↔ (x.int = true → ∃ z : ℤ, r = z) := by
    unfold isInt
    constructor
    · rintro (q | ⟨z, q⟩) hi
      · rw [q] at hi; cases hi
      · exact ⟨z, by exact_mod_cast q⟩
    · intro q
      cases hi : x.int
      · exact Or.inl rfl
      · obtain ⟨z, hz⟩ := q hi
        exact Or.inr ⟨z, by rw [hz]⟩
  rw [e3]

end Purrs.Interval
