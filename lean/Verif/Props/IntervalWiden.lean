import Verif.Props.IntervalDiv
import Mathlib.Data.Finset.Card
import Mathlib.Algebra.BigOperators.Group.Finset.Basic

/-!
# C132, C133: widening and narrowing
-/

namespace Purrs.Interval

open Classical

theorem above_of_key {b c : Bd} (hb : LoOk b) (hc : LoOk c) (h : c.key ≤ b.key) {r : ℝ} (ha : Above b r) : Above c r :=
  (above_key hc r).2 (h.trans ((above_key hb r).1 ha))
theorem below_of_key {b c : Bd} (hb : UpOk b) (hc : UpOk c) (h : b.key ≤ c.key) {r : ℝ} (ha : Below b r) : Below c r :=
  (below_key hc r).2 (((below_key hb r).1 ha).trans h)

theorem key_le_of_lt {b c : Bd} (h : b.v < c.v) : b.key ≤ c.key := by
  rw [← Bd.le_key, Bd.le_iff]; exact Or.inl h
theorem key_le_of_eq {b c : Bd} (h : b.v = c.v) (hf : b.f ≤ c.f) : b.key ≤ c.key := by
  rw [← Bd.le_key, Bd.le_iff]; exact Or.inr ⟨h, hf⟩

theorem widenLo_real {b : Bd} (hb : b.f = 0 ∨ b.f = 1) (ht : b.v ≠ ⊤) (hbot : b.v = ⊥ → b.f = 1) (l : List ℝ) :
    let w := widenLo b false l
    w.key ≤ b.key ∧ (w = Bd.min ∨ ∃ p ∈ l, w = ⟨p, 0⟩ ∨ w = ⟨p, 1⟩) := by
  induction l with
  | nil =>
    refine ⟨?_, Or.inl rfl⟩
    show Bd.min.key ≤ _
    rcases eq_or_ne b.v ⊥ with q | q
    · exact key_le_of_eq q.symm (by rw [hbot q]; exact le_rfl)
    · exact key_le_of_lt (bot_lt_iff_ne_bot.2 q)
  | cons p ps ih =>
    unfold widenLo
    by_cases h1 : lGeV b p
    · have h1' : (p : EReal) ≤ b.v := not_lt.1 h1
      simp only [if_pos h1]
      by_cases h2 : b.gtV p
      · simp only [if_pos h2]
        have e : setGt b p false = ⟨p, 1⟩ := by unfold setGt; rw [if_neg (by simp)]
        rw [e]
        refine ⟨?_, Or.inr ⟨p, by simp, Or.inr rfl⟩⟩
        rcases h2 with q | ⟨q, q'⟩
        · exact key_le_of_lt q
        · exact key_le_of_eq q.symm (by show (1 : ℤ) ≤ b.f; omega)
      · simp only [if_neg h2]
        refine ⟨le_rfl, Or.inr ⟨p, by simp, Or.inl ?_⟩⟩
        have q : b.v = p := le_antisymm (not_lt.1 fun g => h2 (Or.inl g)) h1'
        have q' : ¬ b.f > 0 := fun g => h2 (Or.inr ⟨q, g⟩)
        exact Bd.ext q (show b.f = 0 by omega)
    · simp only [if_neg h1]
      refine ⟨ih.1, ?_⟩
      rcases ih.2 with q | ⟨p', hp', q⟩
      · exact Or.inl q
      · exact Or.inr ⟨p', by simp [hp'], q⟩

theorem widenUp_real {b : Bd} (hb : b.f = 0 ∨ b.f = -1) (ht : b.v ≠ ⊥) (hbot : b.v = ⊤ → b.f = -1) (l : List ℝ) :
    let w := widenUp b false l
    b.key ≤ w.key ∧ (w = Bd.max ∨ ∃ p ∈ l, w = ⟨p, 0⟩ ∨ w = ⟨p, -1⟩) := by
  induction l with
  | nil =>
    refine ⟨?_, Or.inl rfl⟩
    show _ ≤ Bd.max.key
    rcases eq_or_ne b.v ⊤ with q | q
    · exact key_le_of_eq q (by rw [hbot q]; exact le_rfl)
    · exact key_le_of_lt (lt_top_iff_ne_top.2 q)
  | cons p ps ih =>
    unfold widenUp
    by_cases h1 : uLeV b p
    · have h1' : b.v ≤ (p : EReal) := not_lt.1 h1
      simp only [if_pos h1]
      by_cases h2 : b.ltV p
      · simp only [if_pos h2]
        have e : setLt b p false = ⟨p, -1⟩ := by unfold setLt; rw [if_neg (by simp)]
        rw [e]
        refine ⟨?_, Or.inr ⟨p, by simp, Or.inr rfl⟩⟩
        rcases h2 with q | ⟨q, q'⟩
        · exact key_le_of_lt q
        · exact key_le_of_eq q (by show b.f ≤ (-1 : ℤ); omega)
      · simp only [if_neg h2]
        refine ⟨le_rfl, Or.inr ⟨p, by simp, Or.inl ?_⟩⟩
        have q : b.v = p := le_antisymm h1' (not_lt.1 fun g => h2 (Or.inl g))
        have q' : ¬ b.f < 0 := fun g => h2 (Or.inr ⟨q, g⟩)
        exact Bd.ext q (show b.f = 0 by omega)
    · simp only [if_neg h1]
      refine ⟨ih.1, ?_⟩
      rcases ih.2 with q | ⟨p', hp', q⟩
      · exact Or.inl q
      · exact Or.inr ⟨p', by simp [hp'], q⟩

theorem isInt_step {v : EReal} {p : ℤ} (hi : isInt v) (h : ((p : ℝ) : EReal) < v) : (((p + 1 : ℤ) : ℝ) : EReal) ≤ v := by
  obtain ⟨z, rfl⟩ := hi
  have h1 : (p : ℝ) < z := EReal.coe_lt_coe_iff.1 h
  have h2 : p < z := by exact_mod_cast h1
  exact EReal.coe_le_coe_iff.2 (by exact_mod_cast h2)

theorem isInt_step' {v : EReal} {p : ℤ} (hi : isInt v) (h : v < ((p : ℝ) : EReal)) : v ≤ (((p - 1 : ℤ) : ℝ) : EReal) := by
  obtain ⟨z, rfl⟩ := hi
  have h1 : (z : ℝ) < p := EReal.coe_lt_coe_iff.1 h
  have h2 : z < p := by exact_mod_cast h1
  exact EReal.coe_le_coe_iff.2 (by exact_mod_cast (by omega : z ≤ p - 1))

theorem maxFract_not_int : ¬ isInt maxFract := by
  rintro ⟨z, h⟩
  have h1 : (9007199254740991 : ℝ) / 2 = z := EReal.coe_injective h
  have h2 : (9007199254740991 : ℝ) = 2 * z := by linarith
  have h3 : (9007199254740991 : ℤ) = 2 * z := by exact_mod_cast h2
  omega

theorem neg_maxFract_not_int : ¬ isInt (-maxFract) := by
  rintro ⟨z, h⟩
  have h1 : -((9007199254740991 : ℝ) / 2) = z := by
    have : ((-((9007199254740991 : ℝ) / 2) : ℝ) : EReal) = ((z : ℝ) : EReal) := by rw [EReal.coe_neg]; exact h
    exact EReal.coe_injective this
  have h2 : -(9007199254740991 : ℝ) = 2 * z := by linarith
  have h3 : -(9007199254740991 : ℤ) = 2 * z := by exact_mod_cast h2
  omega

/-- A lower boundary of an interval of integers. -/
def LoInt (b : Bd) : Prop := b = Bd.min ∨ (isInt b.v ∧ b.f = 0)
def UpInt (b : Bd) : Prop := b = Bd.max ∨ (isInt b.v ∧ b.f = 0)

theorem setGt_int {b : Bd} (hi : isInt b.v) (p : ℤ) (hp : ((p : ℝ) : EReal) < b.v) (hp0 : -2 ≤ p) :
    setGt b ((p : ℝ) : EReal) true = ⟨((p + 1 : ℤ) : ℝ), 0⟩ ∨ (setGt b ((p : ℝ) : EReal) true = b ∧ maxOdd < b.v) := by
  unfold setGt
  rw [if_pos ⟨rfl, EReal.coe_ne_bot _⟩]
  by_cases h1 : b.v < -maxOdd - 1 ∨ b.v > maxOdd
  · rw [if_pos h1]
    refine Or.inr ⟨rfl, ?_⟩
    rcases h1 with q | q
    · exfalso
      have h2 : -maxOdd - 1 = (((-9007199254740991 - 1 : ℝ)) : EReal) := by unfold maxOdd; push_cast; rfl
      rw [h2] at q
      have := EReal.coe_lt_coe_iff.1 (hp.trans q)
      have h3 : (-2 : ℝ) ≤ p := by exact_mod_cast hp0
      linarith
    · exact q
  · rw [if_neg h1, if_neg (by intro q; rw [q] at hi; exact maxFract_not_int hi)]
    left
    have : ((p : ℝ) : EReal) + 1 = ((p + 1 : ℝ) : EReal) := by push_cast; rfl
    rw [this]
    show (⟨((⌊(p + 1 : ℝ)⌋ : ℝ) : EReal), 0⟩ : Bd) = _
    have e : ⌊(p : ℝ) + 1⌋ = p + 1 := by
      rw [show (p : ℝ) + 1 = ((p + 1 : ℤ) : ℝ) by push_cast; rfl, Int.floor_intCast]
    rw [e]

theorem setLt_int {b : Bd} (hi : isInt b.v) (p : ℤ) (hp : b.v < ((p : ℝ) : EReal)) (hp0 : p ≤ 2) :
    setLt b ((p : ℝ) : EReal) true = ⟨((p - 1 : ℤ) : ℝ), 0⟩ ∨ (setLt b ((p : ℝ) : EReal) true = b ∧ b.v < -maxOdd) := by
  unfold setLt
  rw [if_pos ⟨rfl, EReal.coe_ne_top _⟩]
  by_cases h1 : b.v < -maxOdd ∨ b.v > maxOdd + 1
  · rw [if_pos h1]
    refine Or.inr ⟨rfl, ?_⟩
    rcases h1 with q | q
    · exact q
    · exfalso
      have h2 : maxOdd + 1 = (((9007199254740991 + 1 : ℝ)) : EReal) := by unfold maxOdd; push_cast; rfl
      rw [h2] at q
      have := EReal.coe_lt_coe_iff.1 (lt_trans q hp)
      have h3 : (p : ℝ) ≤ 2 := by exact_mod_cast hp0
      linarith
  · rw [if_neg h1, if_neg (by intro q; rw [q] at hi; exact neg_maxFract_not_int hi)]
    left
    have : ((p : ℝ) : EReal) - 1 = ((p - 1 : ℝ) : EReal) := by push_cast; rfl
    rw [this]
    show (⟨((⌈(p - 1 : ℝ)⌉ : ℝ) : EReal), 0⟩ : Bd) = _
    have e : ⌈(p : ℝ) - 1⌉ = p - 1 := by
      rw [show (p : ℝ) - 1 = ((p - 1 : ℤ) : ℝ) by push_cast; rfl, Int.ceil_intCast]
    rw [e]

theorem widenLo_int {b : Bd} (hb : LoInt b) (l : List ℤ) (hl : ∀ p ∈ l, -2 ≤ p) :
    let w := widenLo b true (l.map fun z : ℤ => (z : ℝ))
    w.key ≤ b.key ∧ LoInt w ∧ (w = Bd.min ∨ (∃ p ∈ l, w = ⟨(p : ℝ), 0⟩ ∨ w = ⟨((p + 1 : ℤ) : ℝ), 0⟩) ∨ (w = b ∧ maxOdd < b.v)) := by
  induction l with
  | nil =>
    refine ⟨?_, Or.inl rfl, Or.inl rfl⟩
    show Bd.min.key ≤ _
    rcases hb with rfl | ⟨⟨z, hz⟩, -⟩
    · exact le_rfl
    · exact key_le_of_lt (by rw [hz]; exact EReal.bot_lt_coe _)
  | cons p ps ih =>
    have ih := ih fun q hq => hl q (by simp [hq])
    rw [List.map_cons]
    unfold widenLo
    by_cases h1 : lGeV b (p : ℝ)
    · have h1' : ((p : ℝ) : EReal) ≤ b.v := not_lt.1 h1
      simp only [if_pos h1]
      have hb' : isInt b.v ∧ b.f = 0 := by
        rcases hb with rfl | q
        · exact absurd (le_bot_iff.1 h1') (EReal.coe_ne_bot _)
        · exact q
      by_cases h2 : b.gtV (p : ℝ)
      · simp only [if_pos h2]
        have h3 : ((p : ℝ) : EReal) < b.v := by
          rcases h2 with q | ⟨-, q⟩
          · exact q
          · rw [hb'.2] at q; exact absurd q (lt_irrefl _)
        rcases setGt_int hb'.1 p h3 (hl p (by simp)) with e | ⟨e, g⟩
        · rw [e]
          refine ⟨?_, Or.inr ⟨⟨p + 1, rfl⟩, rfl⟩, Or.inr (Or.inl ⟨p, by simp, Or.inr rfl⟩)⟩
          rcases (isInt_step hb'.1 h3).lt_or_eq with q | q
          · exact key_le_of_lt q
          · exact key_le_of_eq q (by rw [hb'.2])
        · rw [e]; exact ⟨le_rfl, hb, Or.inr (Or.inr ⟨rfl, g⟩)⟩
      · simp only [if_neg h2]
        refine ⟨le_rfl, hb, Or.inr (Or.inl ⟨p, by simp, Or.inl ?_⟩)⟩
        have q : b.v = ((p : ℝ) : EReal) := le_antisymm (not_lt.1 fun g => h2 (Or.inl g)) h1'
        exact Bd.ext q hb'.2
    · simp only [if_neg h1]
      refine ⟨ih.1, ih.2.1, ?_⟩
      rcases ih.2.2 with q | ⟨p', hp', q⟩ | q
      · exact Or.inl q
      · exact Or.inr (Or.inl ⟨p', by simp [hp'], q⟩)
      · exact Or.inr (Or.inr q)

theorem widenUp_int {b : Bd} (hb : UpInt b) (l : List ℤ) (hl : ∀ p ∈ l, p ≤ 2) :
    let w := widenUp b true (l.map fun z : ℤ => (z : ℝ))
    b.key ≤ w.key ∧ UpInt w ∧ (w = Bd.max ∨ (∃ p ∈ l, w = ⟨(p : ℝ), 0⟩ ∨ w = ⟨((p - 1 : ℤ) : ℝ), 0⟩) ∨ (w = b ∧ b.v < -maxOdd)) := by
  induction l with
  | nil =>
    refine ⟨?_, Or.inl rfl, Or.inl rfl⟩
    show _ ≤ Bd.max.key
    rcases hb with rfl | ⟨⟨z, hz⟩, -⟩
    · exact le_rfl
    · exact key_le_of_lt (by rw [hz]; exact EReal.coe_lt_top _)
  | cons p ps ih =>
    have ih := ih fun q hq => hl q (by simp [hq])
    rw [List.map_cons]
    unfold widenUp
    by_cases h1 : uLeV b (p : ℝ)
    · have h1' : b.v ≤ ((p : ℝ) : EReal) := not_lt.1 h1
      simp only [if_pos h1]
      have hb' : isInt b.v ∧ b.f = 0 := by
        rcases hb with rfl | q
        · exact absurd (top_le_iff.1 h1') (EReal.coe_ne_top _)
        · exact q
      by_cases h2 : b.ltV (p : ℝ)
      · simp only [if_pos h2]
        have h3 : b.v < ((p : ℝ) : EReal) := by
          rcases h2 with q | ⟨-, q⟩
          · exact q
          · rw [hb'.2] at q; exact absurd q (lt_irrefl _)
        rcases setLt_int hb'.1 p h3 (hl p (by simp)) with e | ⟨e, g⟩
        · rw [e]
          refine ⟨?_, Or.inr ⟨⟨p - 1, rfl⟩, rfl⟩, Or.inr (Or.inl ⟨p, by simp, Or.inr rfl⟩)⟩
          rcases (isInt_step' hb'.1 h3).lt_or_eq with q | q
          · exact key_le_of_lt q
          · exact key_le_of_eq q (by rw [hb'.2])
        · rw [e]; exact ⟨le_rfl, hb, Or.inr (Or.inr ⟨rfl, g⟩)⟩
      · simp only [if_neg h2]
        refine ⟨le_rfl, hb, Or.inr (Or.inl ⟨p, by simp, Or.inl ?_⟩)⟩
        have q : b.v = ((p : ℝ) : EReal) := le_antisymm h1' (not_lt.1 fun g => h2 (Or.inl g))
        exact Bd.ext q hb'.2
    · simp only [if_neg h1]
      refine ⟨ih.1, ih.2.1, ?_⟩
      rcases ih.2.2 with q | ⟨p', hp', q⟩ | q
      · exact Or.inl q
      · exact Or.inr (Or.inl ⟨p', by simp [hp'], q⟩)
      · exact Or.inr (Or.inr q)

/-! ## The stop points -/

/-- The lower boundaries a widening step can produce, for reals (`false`) and integers (`true`). -/
noncomputable def stopsLo : Bool → List Bd
  | false => [Bd.min, ⟨((1 : ℝ) : EReal), 0⟩, ⟨((1 : ℝ) : EReal), 1⟩, ⟨((0 : ℝ) : EReal), 0⟩, ⟨((0 : ℝ) : EReal), 1⟩, ⟨((-1 : ℝ) : EReal), 0⟩, ⟨((-1 : ℝ) : EReal), 1⟩]
  | true => [Bd.min, ⟨((2 : ℝ) : EReal), 0⟩, ⟨((1 : ℝ) : EReal), 0⟩, ⟨((0 : ℝ) : EReal), 0⟩, ⟨((-1 : ℝ) : EReal), 0⟩]
/-- The upper boundaries a widening step can produce. -/
noncomputable def stopsUp : Bool → List Bd
  | false => [Bd.max, ⟨((1 : ℝ) : EReal), 0⟩, ⟨((1 : ℝ) : EReal), -1⟩, ⟨((0 : ℝ) : EReal), 0⟩, ⟨((0 : ℝ) : EReal), -1⟩, ⟨((-1 : ℝ) : EReal), 0⟩, ⟨((-1 : ℝ) : EReal), -1⟩]
  | true => [Bd.max, ⟨((1 : ℝ) : EReal), 0⟩, ⟨((0 : ℝ) : EReal), 0⟩, ⟨((-1 : ℝ) : EReal), 0⟩, ⟨((-2 : ℝ) : EReal), 0⟩]

/-- A widened lower boundary. -/
structure LoW (b w : Bd) (t : Bool) : Prop where
  le : w.key ≤ b.key
  lf : w.f = 0 ∨ w.f = 1
  lbot : w.v = ⊥ → w.f = 1
  ltop : w.v ≠ ⊤
  int : t = true → w.v = ⊥ ∨ (isInt w.v ∧ w.f = 0)
  stop : w ∈ stopsLo t ∨ (w = b ∧ t = true ∧ maxOdd < b.v)
/-- A widened upper boundary. -/
structure UpW (b w : Bd) (t : Bool) : Prop where
  le : b.key ≤ w.key
  uf : w.f = 0 ∨ w.f = -1
  utop : w.v = ⊤ → w.f = -1
  ubot : w.v ≠ ⊥
  int : t = true → w.v = ⊤ ∨ (isInt w.v ∧ w.f = 0)
  stop : w ∈ stopsUp t ∨ (w = b ∧ t = true ∧ b.v < -maxOdd)

theorem Proper.loInt {x : Iv} (hx : Proper x) (h : x.int = true) : LoInt x.lo := by
  rcases hx.lint h with q | q
  · exact Or.inl (Bd.ext q (hx.lbot q))
  · exact Or.inr q
theorem Proper.upInt {x : Iv} (hx : Proper x) (h : x.int = true) : UpInt x.up := by
  rcases hx.uint h with q | q
  · exact Or.inl (Bd.ext q (hx.utop q))
  · exact Or.inr q

theorem widenLo_ok {x : Iv} (hx : Proper x) : LoW x.lo (widenLo x.lo x.int [1, 0, -1]) x.int := by
  cases hi : x.int
  · obtain ⟨h1, h2⟩ := widenLo_real hx.lf hx.ltop hx.lbot [1, 0, -1]
    have hs : widenLo x.lo false [1, 0, -1] ∈ stopsLo false := by
      rcases h2 with q | ⟨p, hp, q⟩
      · rw [q]; simp [stopsLo]
      · simp only [List.mem_cons, List.not_mem_nil, or_false] at hp
        rcases hp with rfl | rfl | rfl <;> rcases q with q | q <;> rw [q] <;> simp [stopsLo]
    refine ⟨h1, ?_, ?_, ?_, by simp, Or.inl hs⟩
    all_goals
      rcases h2 with q | ⟨p, -, q | q⟩ <;> rw [q] <;> simp [Bd.min]
  · obtain ⟨h1, h3, h2⟩ := widenLo_int (hx.loInt hi) [1, 0, -1] (by simp)
    have e : (([1, 0, -1] : List ℤ).map fun z : ℤ => (z : ℝ)) = [1, 0, -1] := by simp
    rw [e] at h1 h2 h3
    refine ⟨h1, ?_, ?_, ?_, ?_, ?_⟩
    · rcases h3 with q | q
      · rw [q]; exact Or.inr rfl
      · exact Or.inl q.2
    · intro g
      rcases h3 with q | ⟨q, -⟩
      · rw [q]; rfl
      · exact absurd g (isInt_ne q).2
    · rcases h3 with q | ⟨q, -⟩
      · rw [q]; exact bot_ne_top
      · exact (isInt_ne q).1
    · intro _
      rcases h3 with q | q
      · rw [q]; exact Or.inl rfl
      · exact Or.inr q
    · rcases h2 with q | ⟨p, hp, q⟩ | q
      · rw [q]; left; simp [stopsLo]
      · left
        simp only [List.mem_cons, List.not_mem_nil, or_false] at hp
        rcases hp with rfl | rfl | rfl <;> rcases q with q | q <;> rw [q] <;> norm_num [stopsLo]
      · exact Or.inr ⟨q.1, rfl, q.2⟩

theorem widenUp_ok {x : Iv} (hx : Proper x) : UpW x.up (widenUp x.up x.int [-1, 0, 1]) x.int := by
  cases hi : x.int
  · obtain ⟨h1, h2⟩ := widenUp_real hx.uf hx.ubot hx.utop [-1, 0, 1]
    have hs : widenUp x.up false [-1, 0, 1] ∈ stopsUp false := by
      rcases h2 with q | ⟨p, hp, q⟩
      · rw [q]; simp [stopsUp]
      · simp only [List.mem_cons, List.not_mem_nil, or_false] at hp
        rcases hp with rfl | rfl | rfl <;> rcases q with q | q <;> rw [q] <;> simp [stopsUp]
    refine ⟨h1, ?_, ?_, ?_, by simp, Or.inl hs⟩
    all_goals
      rcases h2 with q | ⟨p, -, q | q⟩ <;> rw [q] <;> simp [Bd.max]
  · obtain ⟨h1, h3, h2⟩ := widenUp_int (hx.upInt hi) [-1, 0, 1] (by simp)
    have e : (([-1, 0, 1] : List ℤ).map fun z : ℤ => (z : ℝ)) = [-1, 0, 1] := by simp
    rw [e] at h1 h2 h3
    refine ⟨h1, ?_, ?_, ?_, ?_, ?_⟩
    · rcases h3 with q | q
      · rw [q]; exact Or.inr rfl
      · exact Or.inl q.2
    · intro g
      rcases h3 with q | ⟨q, -⟩
      · rw [q]; rfl
      · exact absurd g (isInt_ne q).1
    · rcases h3 with q | ⟨q, -⟩
      · rw [q]; exact top_ne_bot
      · exact (isInt_ne q).2
    · intro _
      rcases h3 with q | q
      · rw [q]; exact Or.inl rfl
      · exact Or.inr q
    · rcases h2 with q | ⟨p, hp, q⟩ | q
      · rw [q]; left; simp [stopsUp]
      · left
        simp only [List.mem_cons, List.not_mem_nil, or_false] at hp
        rcases hp with rfl | rfl | rfl <;> rcases q with q | q <;> rw [q] <;> norm_num [stopsUp]
      · exact Or.inr ⟨q.1, rfl, q.2⟩

theorem widen_keys {x : Iv} (hx : Proper x) (old : Iv) :
    (widen x old).lo.key ≤ x.lo.key ∧ x.up.key ≤ (widen x old).up.key ∧ BdOk (widen x old).lo (widen x old).up := by
  have a := widenLo_ok hx
  have b := widenUp_ok hx
  have hb := hx.bdOk
  unfold widen
  simp only
  split_ifs
  · exact ⟨a.le, b.le, ⟨a.lf, b.uf, a.lbot, b.utop, a.ltop, b.ubot⟩⟩
  · exact ⟨a.le, le_rfl, ⟨a.lf, hb.uf, a.lbot, hb.utop, a.ltop, hb.ubot⟩⟩
  · exact ⟨le_rfl, b.le, ⟨hb.lf, b.uf, hb.lbot, b.utop, hb.ltop, b.ubot⟩⟩
  · exact ⟨le_rfl, le_rfl, hb⟩

/-- **C132**: the widened interval contains the new one. -/
theorem C132_widen_mem (x old : Iv) (hx : Proper x) (r : ℝ) (h : Mem x r) : Mem (widen x old) r := by
  obtain ⟨h1, h2, h3⟩ := widen_keys hx old
  exact ⟨above_of_key hx.bdOk.loOk h3.loOk h1 h.1, below_of_key hx.bdOk.upOk h3.upOk h2 h.2.1, h.2.2⟩

/-- **C132**: the widened interval is in normal form. -/
theorem C132_widen_ok (x old : Iv) (hx : Proper x) : Proper (widen x old) := by
  obtain ⟨h1, h2, h3⟩ := widen_keys hx old
  have ho := (Bd.le_key _ _).1 hx.ord
  refine ⟨h3.lf, h3.uf, h3.lbot, h3.utop, h3.ltop, h3.ubot, (Bd.le_key _ _).2 ((h1.trans ho).trans h2), ?_, ?_, ?_⟩
  · intro hi
    unfold widen
    simp only
    split_ifs
    · exact (widenLo_ok hx).int hi
    · exact hx.lint hi
  · intro hi
    unfold widen
    simp only
    split_ifs
    · exact (widenUp_ok hx).int hi
    · exact hx.uint hi
  · rintro hi ⟨g1, g2⟩
    unfold Iv.onePoint at g1
    have k : (widen x old).lo.key = (widen x old).up.key := congrArg Bd.key g1
    have e1 : (widen x old).lo.key = x.lo.key := le_antisymm h1 (by rw [k]; exact ho.trans h2)
    have e2 : x.lo.key = x.up.key := le_antisymm ho (by rw [← e1, k]; exact h2)
    rw [Bd.key_inj e1] at g2
    exact hx.real hi ⟨Bd.key_inj e2, g2⟩

/-! ## Chains -/

/-- How many of the stop points are below a lower boundary; for integers beyond the range of `set_gt`, also the distance to the range. -/
noncomputable def rankLo (t : Bool) (b : Bd) : ℕ :=
  ((stopsLo t).toFinset.filter fun s => s.key < b.key).card + if t = true ∧ maxOdd < b.v then (⌊b.v.toReal⌋ - 9007199254740991).toNat else 0
noncomputable def rankUp (t : Bool) (b : Bd) : ℕ :=
  ((stopsUp t).toFinset.filter fun s => b.key < s.key).card + if t = true ∧ b.v < -maxOdd then (-9007199254740991 - ⌈b.v.toReal⌉).toNat else 0

theorem rankLo_real (b : Bd) : rankLo false b ≤ 7 := by
  unfold rankLo
  rw [if_neg (by simp), add_zero]
  exact (Finset.card_filter_le _ _).trans (List.toFinset_card_le _)
theorem rankUp_real (b : Bd) : rankUp false b ≤ 7 := by
  unfold rankUp
  rw [if_neg (by simp), add_zero]
  exact (Finset.card_filter_le _ _).trans (List.toFinset_card_le _)

theorem key_v_le {b c : Bd} (h : b.key ≤ c.key) : b.v ≤ c.v := by
  rw [← Bd.le_key, Bd.le_iff] at h
  rcases h with q | q
  · exact q.le
  · exact q.1.le

theorem big_floor {v : EReal} (h : maxOdd < v) (ht : v ≠ ⊤) : ∃ r : ℝ, v = r ∧ 9007199254740991 < r := by
  induction v using EReal.rec with
  | bot => exact absurd h (not_lt.2 bot_le)
  | top => exact absurd rfl ht
  | coe r => exact ⟨r, rfl, EReal.coe_lt_coe_iff.1 h⟩

theorem rankLo_lt {t : Bool} {b w c : Bd} (hw : LoW b w t) (h : b.key < c.key) (hc : c.v ≠ ⊤)
    (hi : t = true → isInt c.v ∧ c.f = 0) : rankLo t w < rankLo t c := by
  have hwc : w.key < c.key := lt_of_le_of_lt hw.le h
  have mono : ((stopsLo t).toFinset.filter fun s => s.key < w.key) ⊆ ((stopsLo t).toFinset.filter fun s => s.key < c.key) := by
    intro s hs
    rw [Finset.mem_filter] at hs ⊢
    exact ⟨hs.1, hs.2.trans hwc⟩
  have big : (if t = true ∧ maxOdd < w.v then (⌊w.v.toReal⌋ - 9007199254740991).toNat else 0) ≤
      (if t = true ∧ maxOdd < c.v then (⌊c.v.toReal⌋ - 9007199254740991).toNat else 0) := by
    by_cases g : t = true ∧ maxOdd < w.v
    · have g' : t = true ∧ maxOdd < c.v := ⟨g.1, g.2.trans_le (key_v_le hwc.le)⟩
      rw [if_pos g, if_pos g']
      obtain ⟨r, hr, -⟩ := big_floor g.2 hw.ltop
      obtain ⟨s, hs, -⟩ := big_floor g'.2 hc
      have : r ≤ s := by
        have := key_v_le hwc.le
        rw [hr, hs] at this
        exact EReal.coe_le_coe_iff.1 this
      rw [hr, hs, EReal.toReal_coe, EReal.toReal_coe]
      have := Int.floor_le_floor this
      omega
    · rw [if_neg g]; exact Nat.zero_le _
  unfold rankLo
  rcases hw.stop with q | ⟨q, ht, hb⟩
  · have : ((stopsLo t).toFinset.filter fun s => s.key < w.key).card < ((stopsLo t).toFinset.filter fun s => s.key < c.key).card := by
      apply Finset.card_lt_card
      refine ⟨mono, fun g => ?_⟩
      have := g (Finset.mem_filter.2 ⟨List.mem_toFinset.2 q, hwc⟩)
      exact absurd (Finset.mem_filter.1 this).2 (lt_irrefl _)
    omega
  · subst q
    have h1 := Finset.card_le_card mono
    rw [if_pos ⟨ht, hb⟩, if_pos ⟨ht, hb.trans_le (key_v_le hwc.le)⟩]
    obtain ⟨r, hr, hr'⟩ := big_floor hb hw.ltop
    obtain ⟨⟨z, hz⟩, hf⟩ := hi ht
    have hwi : isInt w.v ∧ w.f = 0 := by
      rcases hw.int ht with g | g
      · rw [g] at hr; exact absurd hr.symm (EReal.coe_ne_bot _)
      · exact g
    obtain ⟨⟨u, hu⟩, huf⟩ := hwi
    have hlt : w.v < c.v := by
      rw [← Bd.lt_key] at h
      rcases h with g | ⟨-, g⟩
      · exact g
      · omega
    rw [hu, hz] at hlt ⊢
    have h2 : (u : ℝ) < z := EReal.coe_lt_coe_iff.1 hlt
    have h3 : u < z := by exact_mod_cast h2
    have h4 : 9007199254740991 < u := by
      have : r = u := EReal.coe_injective (hr.symm.trans hu)
      rw [this] at hr'
      exact_mod_cast hr'
    rw [EReal.toReal_coe, EReal.toReal_coe, Int.floor_intCast, Int.floor_intCast]
    omega

theorem big_ceil {v : EReal} (h : v < -maxOdd) (ht : v ≠ ⊥) : ∃ r : ℝ, v = r ∧ r < -9007199254740991 := by
  have e : -maxOdd = ((-9007199254740991 : ℝ) : EReal) := by unfold maxOdd; rw [← EReal.coe_neg]
  rw [e] at h
  induction v using EReal.rec with
  | top => exact absurd h (not_lt.2 le_top)
  | bot => exact absurd rfl ht
  | coe r => exact ⟨r, rfl, EReal.coe_lt_coe_iff.1 h⟩

theorem rankUp_lt {t : Bool} {b w c : Bd} (hw : UpW b w t) (h : c.key < b.key) (hc : c.v ≠ ⊥)
    (hi : t = true → isInt c.v ∧ c.f = 0) : rankUp t w < rankUp t c := by
  have hwc : c.key < w.key := lt_of_lt_of_le h hw.le
  have mono : ((stopsUp t).toFinset.filter fun s => w.key < s.key) ⊆ ((stopsUp t).toFinset.filter fun s => c.key < s.key) := by
    intro s hs
    rw [Finset.mem_filter] at hs ⊢
    exact ⟨hs.1, hwc.trans hs.2⟩
  have big : (if t = true ∧ w.v < -maxOdd then (-9007199254740991 - ⌈w.v.toReal⌉).toNat else 0) ≤
      (if t = true ∧ c.v < -maxOdd then (-9007199254740991 - ⌈c.v.toReal⌉).toNat else 0) := by
    by_cases g : t = true ∧ w.v < -maxOdd
    · have g' : t = true ∧ c.v < -maxOdd := ⟨g.1, (key_v_le hwc.le).trans_lt g.2⟩
      rw [if_pos g, if_pos g']
      obtain ⟨r, hr, -⟩ := big_ceil g.2 hw.ubot
      obtain ⟨s, hs, -⟩ := big_ceil g'.2 hc
      have : s ≤ r := by
        have := key_v_le hwc.le
        rw [hr, hs] at this
        exact EReal.coe_le_coe_iff.1 this
      rw [hr, hs, EReal.toReal_coe, EReal.toReal_coe]
      have := Int.ceil_le_ceil this
      omega
    · rw [if_neg g]; exact Nat.zero_le _
  unfold rankUp
  rcases hw.stop with q | ⟨q, ht, hb⟩
  · have : ((stopsUp t).toFinset.filter fun s => w.key < s.key).card < ((stopsUp t).toFinset.filter fun s => c.key < s.key).card := by
      apply Finset.card_lt_card
      refine ⟨mono, fun g => ?_⟩
      have := g (Finset.mem_filter.2 ⟨List.mem_toFinset.2 q, hwc⟩)
      exact absurd (Finset.mem_filter.1 this).2 (lt_irrefl _)
    omega
  · subst q
    have h1 := Finset.card_le_card mono
    rw [if_pos ⟨ht, hb⟩, if_pos ⟨ht, (key_v_le hwc.le).trans_lt hb⟩]
    obtain ⟨r, hr, hr'⟩ := big_ceil hb hw.ubot
    obtain ⟨⟨z, hz⟩, hf⟩ := hi ht
    have hwi : isInt w.v ∧ w.f = 0 := by
      rcases hw.int ht with g | g
      · rw [g] at hr; exact absurd hr.symm (EReal.coe_ne_top _)
      · exact g
    obtain ⟨⟨u, hu⟩, huf⟩ := hwi
    have hlt : c.v < w.v := by
      rw [← Bd.lt_key] at h
      rcases h with g | ⟨-, g⟩
      · exact g
      · omega
    rw [hu, hz] at hlt ⊢
    have h2 : (z : ℝ) < u := EReal.coe_lt_coe_iff.1 hlt
    have h3 : z < u := by exact_mod_cast h2
    have h4 : u < -9007199254740991 := by
      have : r = u := EReal.coe_injective (hr.symm.trans hu)
      rw [this] at hr'
      exact_mod_cast hr'
    rw [EReal.toReal_coe, EReal.toReal_coe, Int.ceil_intCast, Int.ceil_intCast]
    omega

/-- One step: nothing changes, or the rank falls. -/
theorem widen_step {y w : Iv} (hy : Proper y) (hw : Proper w) (ht : y.int = w.int) (hsub : ∀ r, Mem w r → Mem y r) :
    widen y w = w ∨ rankLo w.int (widen y w).lo + rankUp w.int (widen y w).up < rankLo w.int w.lo + rankUp w.int w.up := by
  have k1 := lo_le_of_subset hw hy hsub
  have k2 := up_le_of_subset hw hy hsub
  have L : (¬ y.lo.lt w.lo ∧ y.lo = w.lo) ∨ (y.lo.lt w.lo ∧ rankLo w.int (widenLo y.lo y.int [1, 0, -1]) < rankLo w.int w.lo) := by
    rcases k1.lt_or_eq with q | q
    · right
      refine ⟨(Bd.lt_key _ _).2 q, ?_⟩
      rw [← ht]
      refine rankLo_lt (widenLo_ok hy) q hw.ltop fun g => ?_
      rcases hw.loInt (ht ▸ g) with e | e
      · exfalso
        rw [e] at q
        have hv := key_v_le q.le
        have hv' : y.lo.v = ⊥ := le_bot_iff.1 hv
        have : y.lo = Bd.min := Bd.ext hv' (hy.lbot hv')
        rw [this] at q
        exact lt_irrefl _ q
      · exact e
    · left
      exact ⟨fun g => absurd ((Bd.lt_key _ _).1 g) (by rw [q]; exact lt_irrefl _), Bd.key_inj q⟩
  have U : (¬ y.up.gt w.up ∧ y.up = w.up) ∨ (y.up.gt w.up ∧ rankUp w.int (widenUp y.up y.int [-1, 0, 1]) < rankUp w.int w.up) := by
    rcases k2.lt_or_eq with q | q
    · right
      refine ⟨(Bd.gt_key _ _).2 q, ?_⟩
      rw [← ht]
      refine rankUp_lt (widenUp_ok hy) q hw.ubot fun g => ?_
      rcases hw.upInt (ht ▸ g) with e | e
      · exfalso
        rw [e] at q
        have hv := key_v_le q.le
        have hv' : y.up.v = ⊤ := top_le_iff.1 hv
        have : y.up = Bd.max := Bd.ext hv' (hy.utop hv')
        rw [this] at q
        exact lt_irrefl _ q
      · exact e
    · left
      exact ⟨fun g => absurd ((Bd.gt_key _ _).1 g) (by rw [q]; exact lt_irrefl _), Bd.key_inj q.symm⟩
  unfold widen
  rcases L with ⟨a, a'⟩ | ⟨a, a'⟩ <;> rcases U with ⟨b, b'⟩ | ⟨b, b'⟩
  · left; rw [if_neg a, if_neg b, a', b', ht]
  · right; rw [if_neg a, if_pos b, a']; simp only; omega
  · right; rw [if_pos a, if_neg b, b']; simp only; omega
  · right; rw [if_pos a, if_pos b]; simp only; omega

theorem card_le_drops (f : ℕ → ℕ) (P : ℕ → Prop) (h1 : ∀ n, f (n + 1) ≤ f n) (h2 : ∀ n, P n → f (n + 1) < f n) (s : Finset ℕ)
    (hs : ∀ n ∈ s, P n) : s.card ≤ f 0 := by
  have key : ∀ N, (s.filter fun n => n < N).card + f N ≤ f 0 := by
    intro N
    induction N with
    | zero => simp
    | succ N ih =>
      by_cases hN : N ∈ s
      · have e : (s.filter fun n => n < N + 1) = insert N (s.filter fun n => n < N) := by
          ext m
          simp only [Finset.mem_filter, Finset.mem_insert]
          constructor
          · rintro ⟨a, b⟩
            rcases Nat.lt_succ_iff_lt_or_eq.1 b with q | q
            · exact Or.inr ⟨a, q⟩
            · exact Or.inl q
          · rintro (rfl | ⟨a, b⟩)
            · exact ⟨hN, by omega⟩
            · exact ⟨a, by omega⟩
        rw [e, Finset.card_insert_of_notMem (by simp)]
        have := h2 N (hs N hN)
        omega
      · have e : (s.filter fun n => n < N + 1) = (s.filter fun n => n < N) := by
          ext m
          simp only [Finset.mem_filter]
          constructor
          · rintro ⟨a, b⟩
            refine ⟨a, ?_⟩
            rcases Nat.lt_succ_iff_lt_or_eq.1 b with q | q
            · exact q
            · rw [q] at a; exact absurd a hN
          · rintro ⟨a, b⟩; exact ⟨a, by omega⟩
        rw [e]
        have := h1 N
        omega
  have hb : (s.filter fun n => n < s.sup id + 1) = s := by
    rw [Finset.filter_eq_self]
    intro n hn
    have : id n ≤ s.sup id := Finset.le_sup hn
    simp only [id] at this
    omega
  have := key (s.sup id + 1)
  rw [hb] at this
  omega

theorem eventually_const {α : Type*} (w : ℕ → α) (f : ℕ → ℕ) (h : ∀ n, w (n + 1) = w n ∨ f (n + 1) < f n) (h1 : ∀ n, f (n + 1) ≤ f n) :
    ∃ N, ∀ n, N ≤ n → w n = w N := by
  obtain ⟨N, hN⟩ : ∃ N, ∀ n, f N ≤ f n := by
    obtain ⟨m, ⟨N, hN⟩, hm⟩ := WellFounded.has_min (wellFounded_lt (α := ℕ)) (Set.range f) ⟨f 0, 0, rfl⟩
    refine ⟨N, fun n => ?_⟩
    have := hm (f n) ⟨n, rfl⟩
    omega
  refine ⟨N, fun n hn => ?_⟩
  induction n, hn using Nat.le_induction with
  | base => rfl
  | succ n hn ih =>
    rcases h n with q | q
    · rw [q, ih]
    · have a := hN (n + 1)
      have : ∀ m, N ≤ m → f m ≤ f N := by
        intro m hm
        induction m, hm using Nat.le_induction with
        | base => exact le_rfl
        | succ m _ ih2 => exact (h1 m).trans ih2
      have := this n hn
      omega

/-- **C132**: along a chain of widenings of intervals of reals, each containing the one before, the interval changes at most 14 times. -/
theorem C132_widen_real_chain (w y : ℕ → Iv) (hw : Proper (w 0)) (hy : ∀ n, Proper (y n)) (hr : (w 0).int = false) (hyr : ∀ n, (y n).int = false)
    (hsub : ∀ n r, Mem (w n) r → Mem (y n) r) (hstep : ∀ n, w (n + 1) = widen (y n) (w n)) (s : Finset ℕ)
    (hs : ∀ n ∈ s, w (n + 1) ≠ w n) : s.card ≤ 14 := by
  have hp : ∀ n, Proper (w n) := by
    intro n
    cases n with
    | zero => exact hw
    | succ n => rw [hstep]; exact C132_widen_ok _ _ (hy n)
  have hi : ∀ n, (w n).int = false := by
    intro n
    cases n with
    | zero => exact hr
    | succ n => rw [hstep]; exact hyr n
  have st : ∀ n, w (n + 1) = w n ∨ rankLo false (w (n + 1)).lo + rankUp false (w (n + 1)).up < rankLo false (w n).lo + rankUp false (w n).up := by
    intro n
    have := widen_step (hy n) (hp n) (by rw [hyr, hi]) (hsub n)
    rwa [← hstep, hi n] at this
  have := card_le_drops (fun n => rankLo false (w n).lo + rankUp false (w n).up) (fun n => w (n + 1) ≠ w n)
    (fun n => by rcases st n with q | q; exacts [by rw [q], q.le]) (fun n hn => (st n).resolve_left hn) s hs
  have a := rankLo_real (w 0).lo
  have b := rankUp_real (w 0).up
  omega

/-- A chain of intervals of one type. -/
theorem widen_const {t : Bool} (w y : ℕ → Iv) (hp : ∀ n, Proper (w n)) (hy : ∀ n, Proper (y n)) (hi : ∀ n, (w n).int = t)
    (hyi : ∀ n, (y n).int = t) (hsub : ∀ n r, Mem (w n) r → Mem (y n) r) (hstep : ∀ n, w (n + 1) = widen (y n) (w n)) :
    ∃ N, ∀ n, N ≤ n → w n = w N := by
  have st : ∀ n, w (n + 1) = w n ∨ rankLo t (w (n + 1)).lo + rankUp t (w (n + 1)).up < rankLo t (w n).lo + rankUp t (w n).up := by
    intro n
    have := widen_step (hy n) (hp n) (by rw [hyi, hi]) (hsub n)
    rwa [← hstep, hi n] at this
  exact eventually_const w (fun n => rankLo t (w n).lo + rankUp t (w n).up) st
    (fun n => by rcases st n with q | q; exacts [by simp only [q]; exact le_rfl, q.le])

/-- **C132**: every chain of widenings, each containing the one before, is constant from some point on. -/
theorem C132_widen_stabilises (w y : ℕ → Iv) (hw : Proper (w 0)) (hy : ∀ n, Proper (y n)) (hsub : ∀ n r, Mem (w n) r → Mem (y n) r)
    (hstep : ∀ n, w (n + 1) = widen (y n) (w n)) : ∃ N, ∀ n, N ≤ n → w n = w N := by
  have hp : ∀ n, Proper (w n) := by
    intro n
    cases n with
    | zero => exact hw
    | succ n => rw [hstep]; exact C132_widen_ok _ _ (hy n)
  have ht : ∀ n, (w (n + 1)).int = (y n).int := fun n => by rw [hstep]; rfl
  by_cases hall : ∀ n, (w n).int = true
  · exact widen_const (t := true) w y hp hy hall (fun n => by rw [← ht]; exact hall _) hsub hstep
  · push Not at hall
    obtain ⟨m, hm⟩ := hall
    have hm : (w m).int = false := by simpa using hm
    have yreal : ∀ n, (w n).int = false → (y n).int = false := by
      intro n hn
      obtain ⟨r, hr, hz⟩ := exists_nonint (hp n) hn
      by_contra g
      exact hz ((hsub n r hr).2.2 (by simpa using g))
    have wreal : ∀ k, (w (m + k)).int = false := by
      intro k
      induction k with
      | zero => exact hm
      | succ k ih => rw [← add_assoc, ht]; exact yreal _ ih
    obtain ⟨N, hN⟩ := widen_const (t := false) (fun k => w (m + k)) (fun k => y (m + k)) (fun k => hp _) (fun k => hy _) wreal
      (fun k => yreal _ (wreal k)) (fun k => hsub _) (fun k => hstep _)
    refine ⟨m + N, fun n hn => ?_⟩
    have := hN (n - m) (by omega)
    rwa [show m + (n - m) = n by omega] at this

/-- The reals that are not negative. -/
noncomputable def half : Iv := ⟨⟨((0 : ℝ) : EReal), 0⟩, Bd.max, false⟩

theorem half_eq : widen (cl 0 2 false) (cl 0 1 false) = half := by
  have h1 : ¬ (cl 0 2 false).lo.lt (cl 0 1 false).lo := by
    rintro (q | ⟨-, q⟩) <;> exact absurd q (lt_irrefl _)
  have h2 : (cl 0 2 false).up.gt (cl 0 1 false).up := Or.inl (EReal.coe_lt_coe_iff.2 (by norm_num))
  have h3 : ∀ p : ℝ, p < 2 → ¬ uLeV (cl 0 2 false).up p := fun p hp => not_not.2 (EReal.coe_lt_coe_iff.2 hp)
  unfold widen
  rw [if_neg h1, if_pos h2]
  unfold widenUp
  rw [if_neg (h3 _ (by norm_num))]
  unfold widenUp
  rw [if_neg (h3 _ (by norm_num))]
  unfold widenUp
  rw [if_neg (h3 _ (by norm_num))]
  rfl

theorem half_proper : Proper half := by rw [← half_eq]; exact C132_widen_ok _ _ (cl_proper_real _ _ (by norm_num))
theorem half_self : widen half half = half := by
  have h1 : ¬ half.lo.lt half.lo := by rintro (q | ⟨-, q⟩) <;> exact absurd q (lt_irrefl _)
  have h2 : ¬ half.up.gt half.up := by rintro (q | ⟨-, q⟩) <;> exact absurd q (lt_irrefl _)
  unfold widen
  rw [if_neg h1, if_neg h2]

/-- **C132**: a chain that changes once, from [0, 1] by [0, 2] to [0, +∞). -/
theorem C132_nonvacuous : ∃ w y : ℕ → Iv, Proper (w 0) ∧ (∀ n, Proper (y n)) ∧ (w 0).int = false ∧ (∀ n, (y n).int = false) ∧
    (∀ n r, Mem (w n) r → Mem (y n) r) ∧ (∀ n, w (n + 1) = widen (y n) (w n)) ∧ w 1 ≠ w 0 := by
  refine ⟨fun n => if n = 0 then cl 0 1 false else half, fun n => if n = 0 then cl 0 2 false else half, ?_, ?_, rfl, ?_, ?_, ?_, ?_⟩
  · exact cl_proper_real _ _ (by norm_num)
  · intro n
    by_cases h : n = 0
    · simp only [if_pos h]; exact cl_proper_real _ _ (by norm_num)
    · simp only [if_neg h]; exact half_proper
  · intro n
    by_cases h : n = 0
    · simp only [if_pos h]; rfl
    · simp only [if_neg h]; rfl
  · intro n r
    by_cases h : n = 0
    · simp only [if_pos h]
      rw [cl_mem, cl_mem]
      rintro ⟨a, b, c⟩
      exact ⟨a, by linarith, c⟩
    · simp only [if_neg h]; exact id
  · intro n
    by_cases h : n = 0
    · simp only [if_pos h]; rw [if_neg (by omega), half_eq]
    · simp only [if_neg h]; rw [if_neg (by omega), half_self]
  · simp only [if_true]
    rw [if_neg (by norm_num)]
    intro g
    have : (⊤ : EReal) = ((1 : ℝ) : EReal) := congrArg (fun x : Iv => x.up.v) g
    exact absurd this.symm (EReal.coe_ne_top _)

/-! ## Narrowing -/

theorem narrow_bds {x old : Iv} (hx : Proper x) (ho : Proper old) (hsub : ∀ r, Mem x r → Mem old r) :
    ∃ l u, narrow x old = ⟨l, u, x.int⟩ ∧ (l = x.lo ∨ l = old.lo) ∧ (u = x.up ∨ u = old.up) ∧ old.lo.key ≤ l.key ∧ l.key ≤ x.lo.key ∧
      x.up.key ≤ u.key ∧ u.key ≤ old.up.key := by
  have k1 := lo_le_of_subset hx ho hsub
  have k2 := up_le_of_subset hx ho hsub
  have kx := (Bd.le_key _ _).1 hx.ord
  unfold narrow
  simp only
  set l := if x.lo.gt old.lo ∧ crossesLo old.lo x.lo then x.lo else old.lo with hl
  set u := if x.up.lt old.up ∧ crossesUp old.up x.up then x.up else old.up with hu
  have l1 : l = x.lo ∨ l = old.lo := by rw [hl]; split_ifs; exacts [Or.inl rfl, Or.inr rfl]
  have u1 : u = x.up ∨ u = old.up := by rw [hu]; split_ifs; exacts [Or.inl rfl, Or.inr rfl]
  have l2 : old.lo.key ≤ l.key ∧ l.key ≤ x.lo.key := by
    rcases l1 with q | q <;> rw [q]
    exacts [⟨k1, le_rfl⟩, ⟨le_rfl, k1⟩]
  have u2 : x.up.key ≤ u.key ∧ u.key ≤ old.up.key := by
    rcases u1 with q | q <;> rw [q]
    exacts [⟨le_rfl, k2⟩, ⟨k2, le_rfl⟩]
  have hg : ¬ l.gt u := by
    rw [Bd.gt_key, not_lt]
    exact (l2.2.trans kx).trans u2.1
  rw [if_neg hg]
  exact ⟨l, u, rfl, l1, u1, l2.1, l2.2, u2.1, u2.2⟩

theorem narrow_bdOk {x old : Iv} (hx : Proper x) (ho : Proper old) (hsub : ∀ r, Mem x r → Mem old r) :
    BdOk (narrow x old).lo (narrow x old).up := by
  obtain ⟨l, u, e, l1, u1, -⟩ := narrow_bds hx ho hsub
  rw [e]
  have a := hx.bdOk
  have b := ho.bdOk
  rcases l1 with rfl | rfl <;> rcases u1 with rfl | rfl
  · exact a
  · exact ⟨a.lf, b.uf, a.lbot, b.utop, a.ltop, b.ubot⟩
  · exact ⟨b.lf, a.uf, b.lbot, a.utop, b.ltop, a.ubot⟩
  · exact b

/-- **C133**: a narrowed interval lies between the new one and the old one. -/
theorem C133_narrow_between (x old : Iv) (hx : Proper x) (ho : Proper old) (hsub : ∀ r, Mem x r → Mem old r) (r : ℝ) :
    (Mem x r → Mem (narrow x old) r) ∧ (Mem (narrow x old) r → Mem old r) := by
  have hb := narrow_bdOk hx ho hsub
  obtain ⟨l, u, e, -, -, k1, k2, k3, k4⟩ := narrow_bds hx ho hsub
  rw [e] at hb ⊢
  refine ⟨fun h => ⟨above_of_key hx.bdOk.loOk hb.loOk k2 h.1, below_of_key hx.bdOk.upOk hb.upOk k3 h.2.1, h.2.2⟩,
    fun h => ⟨above_of_key hb.loOk ho.bdOk.loOk k1 h.1, below_of_key hb.upOk ho.bdOk.upOk k4 h.2.1, fun hi => ?_⟩⟩
  cases hxi : x.int
  · obtain ⟨s, hs, hz⟩ := exists_nonint hx hxi
    exact absurd ((hsub s hs).2.2 hi) hz
  · exact h.2.2 hxi

/-- **C133**: for intervals of the same type the narrowed interval is in normal form. -/
theorem C133_narrow_ok (x old : Iv) (hx : Proper x) (ho : Proper old) (ht : x.int = old.int) (hsub : ∀ r, Mem x r → Mem old r) :
    Proper (narrow x old) := by
  have hb := narrow_bdOk hx ho hsub
  obtain ⟨l, u, e, l1, u1, k1, k2, k3, k4⟩ := narrow_bds hx ho hsub
  have kx := (Bd.le_key _ _).1 hx.ord
  rw [e] at hb ⊢
  refine ⟨hb.lf, hb.uf, hb.lbot, hb.utop, hb.ltop, hb.ubot, (Bd.le_key _ _).2 ((k2.trans kx).trans k3), ?_, ?_, ?_⟩
  · intro hi
    rcases l1 with rfl | rfl
    exacts [hx.lint hi, ho.lint (ht ▸ hi)]
  · intro hi
    rcases u1 with rfl | rfl
    exacts [hx.uint hi, ho.uint (ht ▸ hi)]
  · rintro hi ⟨g1, g2⟩
    have g1 : l = u := g1
    have e1 : l.key = x.lo.key := le_antisymm k2 (by rw [g1]; exact kx.trans k3)
    have e2 : x.lo.key = x.up.key := le_antisymm kx (by rw [← e1, g1]; exact k3)
    have g2 : isInt l.v := g2
    rw [Bd.key_inj e1] at g2
    exact hx.real hi ⟨Bd.key_inj e2, g2⟩

/-- How far a lower boundary has moved past the point `p`: below, at, beyond. -/
noncomputable def past (b : Bd) (p : ℝ) : ℕ := if b.gtV p then 2 else if b.v = p then 1 else 0
noncomputable def pastUp (b : Bd) (p : ℝ) : ℕ := if b.ltV p then 2 else if b.v = p then 1 else 0
/-- The progress of a lower boundary over the points that narrowing looks at. -/
noncomputable def progLo (b : Bd) : ℕ := (if b.v = ⊥ then 0 else 1) + past b (-1) + past b 0 + past b 1
noncomputable def progUp (b : Bd) : ℕ := (if b.v = ⊤ then 0 else 1) + pastUp b (-1) + pastUp b 0 + pastUp b 1

theorem past_le (b : Bd) (p : ℝ) : past b p ≤ 2 := by unfold past; split_ifs <;> omega
theorem pastUp_le (b : Bd) (p : ℝ) : pastUp b p ≤ 2 := by unfold pastUp; split_ifs <;> omega

theorem gtV_mono {b c : Bd} {p : ℝ} (h : b.key ≤ c.key) (g : b.gtV p) : c.gtV p := by
  rw [← Bd.le_key, Bd.le_iff] at h
  rcases g with g | ⟨g, g'⟩ <;> rcases h with h | ⟨h, h'⟩
  · exact Or.inl (lt_trans g h)
  · exact Or.inl (h ▸ g)
  · exact Or.inl (by rw [← g]; exact h)
  · exact Or.inr ⟨h ▸ g, by omega⟩
theorem ltV_mono {b c : Bd} {p : ℝ} (h : c.key ≤ b.key) (g : b.ltV p) : c.ltV p := by
  rw [← Bd.le_key, Bd.le_iff] at h
  rcases g with g | ⟨g, g'⟩ <;> rcases h with h | ⟨h, h'⟩
  · exact Or.inl (lt_trans h g)
  · exact Or.inl (h ▸ g)
  · exact Or.inl (by rw [← g]; exact h)
  · exact Or.inr ⟨h ▸ g, by omega⟩

theorem past_mono {b c : Bd} (p : ℝ) (h : b.key ≤ c.key) : past b p ≤ past c p := by
  unfold past
  by_cases h1 : b.gtV p
  · rw [if_pos h1, if_pos (gtV_mono h h1)]
  · rw [if_neg h1]
    by_cases h2 : c.gtV p
    · rw [if_pos h2]; split_ifs <;> omega
    · rw [if_neg h2]
      by_cases h3 : b.v = p
      · have : c.v = p := le_antisymm (not_lt.1 fun g => h2 (Or.inl g)) (h3 ▸ key_v_le h)
        rw [if_pos h3, if_pos this]
      · rw [if_neg h3]; exact Nat.zero_le _
theorem pastUp_mono {b c : Bd} (p : ℝ) (h : c.key ≤ b.key) : pastUp b p ≤ pastUp c p := by
  unfold pastUp
  by_cases h1 : b.ltV p
  · rw [if_pos h1, if_pos (ltV_mono h h1)]
  · rw [if_neg h1]
    by_cases h2 : c.ltV p
    · rw [if_pos h2]; split_ifs <;> omega
    · rw [if_neg h2]
      by_cases h3 : b.v = p
      · have : c.v = p := le_antisymm (h3 ▸ key_v_le h) (not_lt.1 fun g => h2 (Or.inl g))
        rw [if_pos h3, if_pos this]
      · rw [if_neg h3]; exact Nat.zero_le _

theorem past_lt {b c : Bd} (hbf : b.f = 0 ∨ b.f = 1) (p : ℝ) (h : b.key < c.key) (h1 : b.leV p) (h2 : lGeV c p) : past b p < past c p := by
  have h2 : (p : EReal) ≤ c.v := not_lt.1 h2
  unfold past
  rw [if_neg h1]
  by_cases h3 : c.gtV p
  · rw [if_pos h3]; split_ifs <;> omega
  · have hc : c.v = p := le_antisymm (not_lt.1 fun g => h3 (Or.inl g)) h2
    have hcf : ¬ c.f > 0 := fun g => h3 (Or.inr ⟨hc, g⟩)
    rw [if_neg h3, if_pos hc, if_neg]
    · omega
    · intro hb
      rw [← Bd.lt_key] at h
      rcases h with q | ⟨-, q⟩
      · rw [hb, hc] at q; exact lt_irrefl _ q
      · omega
theorem pastUp_lt {b c : Bd} (hbf : b.f = 0 ∨ b.f = -1) (p : ℝ) (h : c.key < b.key) (h1 : b.geV p) (h2 : uLeV c p) : pastUp b p < pastUp c p := by
  have h2 : c.v ≤ (p : EReal) := not_lt.1 h2
  unfold pastUp
  rw [if_neg h1]
  by_cases h3 : c.ltV p
  · rw [if_pos h3]; split_ifs <;> omega
  · have hc : c.v = p := le_antisymm h2 (not_lt.1 fun g => h3 (Or.inl g))
    have hcf : ¬ c.f < 0 := fun g => h3 (Or.inr ⟨hc, g⟩)
    rw [if_neg h3, if_pos hc, if_neg]
    · omega
    · intro hb
      rw [← Bd.lt_key] at h
      rcases h with q | ⟨-, q⟩
      · rw [hb, hc] at q; exact lt_irrefl _ q
      · omega

theorem progLo_le (b : Bd) : progLo b ≤ 7 := by
  have a := past_le b (-1)
  have c := past_le b 0
  have d := past_le b 1
  unfold progLo
  split_ifs <;> omega
theorem progUp_le (b : Bd) : progUp b ≤ 7 := by
  have a := pastUp_le b (-1)
  have c := pastUp_le b 0
  have d := pastUp_le b 1
  unfold progUp
  split_ifs <;> omega

theorem progLo_lt {b c : Bd} (hbf : b.f = 0 ∨ b.f = 1) (hc : c.v = ⊥ → c.f = 1) (hb : b.v = ⊥ → b.f = 1) (h : b.key < c.key) (h1 : crossesLo b c) :
    progLo b < progLo c := by
  have m1 := past_mono (-1) h.le
  have m2 := past_mono 0 h.le
  have m3 := past_mono 1 h.le
  have m0 : (if b.v = ⊥ then 0 else 1) ≤ (if c.v = ⊥ then 0 else 1) := by
    by_cases g : c.v = ⊥
    · have : b.v = ⊥ := le_bot_iff.1 (g ▸ key_v_le h.le)
      rw [if_pos g, if_pos this]
    · rw [if_neg g]; split_ifs <;> omega
  unfold progLo
  rcases h1 with q | ⟨q, q'⟩ | ⟨q, q'⟩ | ⟨q, q'⟩
  · have : c.v ≠ ⊥ := by
      intro g
      rw [← Bd.lt_key] at h
      rcases h with e | ⟨-, e⟩
      · rw [g] at e; exact not_lt_bot e
      · rw [hc g, hb q] at e; exact lt_irrefl _ e
    rw [if_pos q, if_neg this]
    omega
  · have := past_lt hbf (-1) h q q'
    omega
  · have := past_lt hbf 0 h (by simpa using q) (by simpa using q')
    omega
  · have := past_lt hbf 1 h (by simpa using q) (by simpa using q')
    omega
theorem progUp_lt {b c : Bd} (hbf : b.f = 0 ∨ b.f = -1) (hc : c.v = ⊤ → c.f = -1) (hb : b.v = ⊤ → b.f = -1) (h : c.key < b.key) (h1 : crossesUp b c) :
    progUp b < progUp c := by
  have m1 := pastUp_mono (-1) h.le
  have m2 := pastUp_mono 0 h.le
  have m3 := pastUp_mono 1 h.le
  have m0 : (if b.v = ⊤ then 0 else 1) ≤ (if c.v = ⊤ then 0 else 1) := by
    by_cases g : c.v = ⊤
    · have : b.v = ⊤ := top_le_iff.1 (g ▸ key_v_le h.le)
      rw [if_pos g, if_pos this]
    · rw [if_neg g]; split_ifs <;> omega
  unfold progUp
  rcases h1 with q | ⟨q, q'⟩ | ⟨q, q'⟩ | ⟨q, q'⟩
  · have : c.v ≠ ⊤ := by
      intro g
      rw [← Bd.lt_key] at h
      rcases h with e | ⟨-, e⟩
      · rw [g] at e; exact not_top_lt e
      · rw [hc g, hb q] at e; exact lt_irrefl _ e
    rw [if_pos q, if_neg this]
    omega
  · have := pastUp_lt hbf (-1) h q q'
    omega
  · have := pastUp_lt hbf 0 h (by simpa using q) (by simpa using q')
    omega
  · have := pastUp_lt hbf 1 h (by simpa using q) (by simpa using q')
    omega

theorem narrow_step {y w : Iv} (hy : Proper y) (hw : Proper w) (ht : y.int = w.int) (hsub : ∀ r, Mem y r → Mem w r) :
    narrow y w = w ∨ progLo w.lo + progUp w.up < progLo (narrow y w).lo + progUp (narrow y w).up := by
  have k1 := lo_le_of_subset hy hw hsub
  have k2 := up_le_of_subset hy hw hsub
  have kx := (Bd.le_key _ _).1 hy.ord
  have L : (¬ (y.lo.gt w.lo ∧ crossesLo w.lo y.lo)) ∨ ((y.lo.gt w.lo ∧ crossesLo w.lo y.lo) ∧ progLo w.lo < progLo y.lo) := by
    by_cases g : y.lo.gt w.lo ∧ crossesLo w.lo y.lo
    · exact Or.inr ⟨g, progLo_lt hw.lf hy.lbot hw.lbot ((Bd.gt_key _ _).1 g.1) g.2⟩
    · exact Or.inl g
  have U : (¬ (y.up.lt w.up ∧ crossesUp w.up y.up)) ∨ ((y.up.lt w.up ∧ crossesUp w.up y.up) ∧ progUp w.up < progUp y.up) := by
    by_cases g : y.up.lt w.up ∧ crossesUp w.up y.up
    · exact Or.inr ⟨g, progUp_lt hw.uf hy.utop hw.utop ((Bd.lt_key _ _).1 g.1) g.2⟩
    · exact Or.inl g
  have ng : ∀ l u : Bd, l.key ≤ y.lo.key → y.up.key ≤ u.key → ¬ l.gt u := fun l u a b => by
    rw [Bd.gt_key, not_lt]; exact (a.trans kx).trans b
  unfold narrow
  rcases L with a | ⟨a, a'⟩ <;> rcases U with b | ⟨b, b'⟩
  · left; simp only [if_neg a, if_neg b, if_neg (ng _ _ k1 k2), ht]
  · right; simp only [if_neg a, if_pos b, if_neg (ng _ _ k1 le_rfl)]; omega
  · right; simp only [if_pos a, if_neg b, if_neg (ng _ _ le_rfl k2)]; omega
  · right; simp only [if_pos a, if_pos b, if_neg (ng _ _ le_rfl le_rfl)]; omega

/-- **C133**: along a chain of narrowings, each inside the one before, the interval changes at most 14 times. -/
theorem C133_narrow_chain (w y : ℕ → Iv) (hw : Proper (w 0)) (hy : ∀ n, Proper (y n)) (ht : ∀ n, (y n).int = (w 0).int)
    (hsub : ∀ n r, Mem (y n) r → Mem (w n) r) (hstep : ∀ n, w (n + 1) = narrow (y n) (w n)) (s : Finset ℕ)
    (hs : ∀ n ∈ s, w (n + 1) ≠ w n) : s.card ≤ 14 := by
  have hp : ∀ n, Proper (w n) ∧ (w n).int = (w 0).int := by
    intro n
    induction n with
    | zero => exact ⟨hw, rfl⟩
    | succ n ih =>
      rw [hstep]
      refine ⟨C133_narrow_ok _ _ (hy n) ih.1 (by rw [ht, ih.2]) (hsub n), ?_⟩
      obtain ⟨l, u, e, -⟩ := narrow_bds (hy n) ih.1 (hsub n)
      rw [e]; exact ht n
  have st : ∀ n, w (n + 1) = w n ∨ progLo (w n).lo + progUp (w n).up < progLo (w (n + 1)).lo + progUp (w (n + 1)).up := by
    intro n
    have := narrow_step (hy n) (hp n).1 (by rw [ht, (hp n).2]) (hsub n)
    rwa [← hstep] at this
  have bd : ∀ n, progLo (w n).lo + progUp (w n).up ≤ 14 := fun n => by
    have a := progLo_le (w n).lo
    have b := progUp_le (w n).up
    omega
  have := card_le_drops (fun n => 14 - (progLo (w n).lo + progUp (w n).up)) (fun n => w (n + 1) ≠ w n)
    (fun n => by
      rcases st n with q | q
      · rw [q]
      · omega)
    (fun n hn => by
      have := (st n).resolve_left hn
      have := bd n
      have := bd (n + 1)
      omega) s hs
  omega

/-- No stop point lies between the boundaries: the old interval stays. -/
theorem narrow_keeps {a b c d : ℝ} (t t' : Bool) (h1 : 1 < a) (h2 : a ≤ c) (h3 : d ≤ b) (h4 : c ≤ d) : narrow (cl c d t) (cl a b t') = ⟨⟨a, 0⟩, ⟨b, 0⟩, t⟩ := by
  have n1 : ¬ crossesLo (cl a b t').lo (cl c d t).lo := by
    rintro (q | ⟨q, -⟩ | ⟨q, -⟩ | ⟨q, -⟩)
    · exact absurd q (EReal.coe_ne_bot _)
    · exact q (Or.inl (EReal.coe_lt_coe_iff.2 (by linarith)))
    · exact q (Or.inl (show ((0 : ℝ) : EReal) < _ from EReal.coe_lt_coe_iff.2 (by linarith)))
    · exact q (Or.inl (show ((1 : ℝ) : EReal) < _ from EReal.coe_lt_coe_iff.2 (by linarith)))
  have n2 : ¬ crossesUp (cl a b t').up (cl c d t).up := by
    rintro (q | ⟨-, q⟩ | ⟨-, q⟩ | ⟨-, q⟩)
    · exact absurd q (EReal.coe_ne_top _)
    · exact q (EReal.coe_lt_coe_iff.2 (by linarith))
    · exact q (show ((0 : ℝ) : EReal) < _ from EReal.coe_lt_coe_iff.2 (by linarith))
    · exact q (show ((1 : ℝ) : EReal) < _ from EReal.coe_lt_coe_iff.2 (by linarith))
  have ng : ¬ (cl a b t').lo.gt (cl a b t').up := by
    rintro (q | ⟨-, q⟩)
    · have : b < a := EReal.coe_lt_coe_iff.1 q
      linarith
    · exact absurd q (lt_irrefl _)
  unfold narrow
  have n1' : ¬ ((cl c d t).lo.gt (cl a b t').lo ∧ crossesLo (cl a b t').lo (cl c d t).lo) := fun q => n1 q.2
  have n2' : ¬ ((cl c d t).up.lt (cl a b t').up ∧ crossesUp (cl a b t').up (cl c d t).up) := fun q => n2 q.2
  simp only [if_neg n1', if_neg n2', if_neg ng]
  rfl

/-- **C133**: the narrowing of [2, 5] by [3, 4] is [2, 5], by [0, +∞) to [1, 2] it is [1, 2]; the hypotheses are met. -/
theorem C133_nonvacuous : Proper (cl 3 4 false) ∧ Proper (cl 2 5 false) ∧ (∀ r, Mem (cl 3 4 false) r → Mem (cl 2 5 false) r) ∧
    narrow (cl 3 4 false) (cl 2 5 false) = cl 2 5 false ∧ (∀ r, Mem (cl 1 2 false) r → Mem half r) ∧
    narrow (cl 1 2 false) half = cl 1 2 false := by
  refine ⟨cl_proper_real _ _ (by norm_num), cl_proper_real _ _ (by norm_num), ?_, narrow_keeps _ _ (by norm_num) (by norm_num) (by norm_num) (by norm_num), ?_, ?_⟩
  · intro r
    rw [cl_mem, cl_mem]
    rintro ⟨a, b, c⟩
    exact ⟨by linarith, by linarith, c⟩
  · intro r h
    rw [cl_mem] at h
    exact ⟨Or.inl (EReal.coe_lt_coe_iff.2 (by linarith)), Or.inl (EReal.coe_lt_top _), by simp [half]⟩
  · have c1 : (cl 1 2 false).lo.gt half.lo ∧ crossesLo half.lo (cl 1 2 false).lo := by
      refine ⟨Or.inl (EReal.coe_lt_coe_iff.2 (by norm_num)), Or.inr (Or.inr (Or.inl ⟨?_, ?_⟩))⟩
      · rintro (q | ⟨-, q⟩)
        · exact absurd q (lt_irrefl _)
        · exact absurd q (lt_irrefl _)
      · exact not_lt.2 (show ((0 : ℝ) : EReal) ≤ _ from EReal.coe_le_coe_iff.2 (by norm_num))
    have c2 : (cl 1 2 false).up.lt half.up ∧ crossesUp half.up (cl 1 2 false).up :=
      ⟨Or.inl (EReal.coe_lt_top _), Or.inl rfl⟩
    have ng : ¬ (cl 1 2 false).lo.gt (cl 1 2 false).up := by
      rintro (q | ⟨-, q⟩)
      · have : (2 : ℝ) < 1 := EReal.coe_lt_coe_iff.1 q
        norm_num at this
      · exact absurd q (lt_irrefl _)
    unfold narrow
    simp only [if_pos c1, if_pos c2, if_neg ng]

/-- **C134** refuted: narrowing the reals of [5/2, 11/2] by the integers of [3, 5] gives an interval with the members of the latter, which is not equal to it
and has the boundaries 5/2 and 11/2 with the type INTEGER. -/
theorem C134_mixed_refuted : ∃ x old : Iv, Proper x ∧ Proper old ∧ (∀ r, Mem x r → Mem old r) ∧ (∀ r, Mem (narrow x old) r ↔ Mem x r) ∧
    ¬ eqIv (narrow x old) x ∧ ¬ Ok (narrow x old) := by
  have e : narrow (cl (3 : ℤ) (5 : ℤ) true) (cl (5 / 2) (11 / 2) false) = ⟨⟨((5 / 2 : ℝ) : EReal), 0⟩, ⟨((11 / 2 : ℝ) : EReal), 0⟩, true⟩ :=
    narrow_keeps _ _ (by norm_num) (by norm_num) (by norm_num) (by norm_num)
  refine ⟨cl (3 : ℤ) (5 : ℤ) true, cl (5 / 2) (11 / 2) false, cl_proper_int 3 5 (by norm_num), cl_proper_real _ _ (by norm_num), ?_, ?_, ?_, ?_⟩
  · intro r
    rw [cl_mem, cl_mem]
    rintro ⟨a, b, -⟩
    push_cast at a b
    exact ⟨by linarith, by linarith, by simp⟩
  · intro r
    rw [e]
    show Mem (cl (5 / 2) (11 / 2) true) r ↔ _
    rw [cl_mem, cl_mem]
    constructor
    · rintro ⟨a, b, c⟩
      obtain ⟨z, rfl⟩ := c rfl
      refine ⟨?_, ?_, fun _ => ⟨z, rfl⟩⟩
      · have : (2 : ℝ) < z := by linarith
        have : 2 < z := by exact_mod_cast this
        exact_mod_cast (by omega : 3 ≤ z)
      · have : (z : ℝ) < 6 := by linarith
        have : z < 6 := by exact_mod_cast this
        exact_mod_cast (by omega : z ≤ 5)
    · rintro ⟨a, b, c⟩
      push_cast at a b
      exact ⟨by linarith, by linarith, c⟩
  · rw [e]
    rintro ⟨q, -⟩
    have := EReal.coe_injective (congrArg Bd.v q)
    norm_num at this
  · rw [e]
    rintro (q | q)
    · have := congrArg (fun x : Iv => x.lo.v) q
      exact absurd this (EReal.coe_ne_top _)
    · rcases q.lint rfl with g | ⟨⟨z, g⟩, -⟩
      · exact absurd g (EReal.coe_ne_bot _)
      · have h1 : (5 / 2 : ℝ) = z := EReal.coe_injective g
        have h2 : (2 : ℝ) < z := by rw [← h1]; norm_num
        have h3 : (z : ℝ) < 3 := by rw [← h1]; norm_num
        have h4 : 2 < z := by exact_mod_cast h2
        have h5 : z < 3 := by exact_mod_cast h3
        omega

end Purrs.Interval
