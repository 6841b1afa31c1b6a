import Verif.Model.SimplifyRoot
import Verif.Model.ExprLemmas
import Verif.Props.IntUtil
import Mathlib.Analysis.SpecialFunctions.Pow.Real
import Mathlib.Analysis.SpecialFunctions.Pow.Complex
import Verif.Model.RealInterp
import Mathlib.Tactic.Linarith
import Mathlib.Tactic.FieldSimp
import Mathlib.Tactic.Ring

/-!
# C78, C79: radicals
-/

namespace Purrs.SimplifyRoot

open Purrs

/-! ## Integer part: `to_std_form` -/

theorem stdStep_pos {k : ℕ} (hk : 0 < k) (e : ℕ) :
    e = k * (stdStep k e).1 + (stdStep k e).2 ∧ (stdStep k e).2 < k := by
  have h : ¬ ((k : ℤ) < 0 ∧ e % (k : ℤ).natAbs ≠ 0) := by omega
  rw [stdStep, if_neg h]
  simp only [Int.natAbs_natCast]
  exact ⟨(Nat.div_add_mod e k).symm, Nat.mod_lt _ hk⟩

theorem stdStep_neg {k : ℕ} (hk : 0 < k) (e : ℕ) :
    e + (stdStep (-(k : ℤ)) e).2 = k * (stdStep (-(k : ℤ)) e).1 ∧ (stdStep (-(k : ℤ)) e).2 < k := by
  have hm := Nat.mod_lt e hk
  have hd := Nat.div_add_mod e k
  have ha : (-(k : ℤ)).natAbs = k := by omega
  by_cases h0 : e % k = 0
  · have h : ¬ (-(k : ℤ) < 0 ∧ e % (-(k : ℤ)).natAbs ≠ 0) := by rw [ha]; omega
    rw [stdStep, if_neg h, ha]
    simp only
    omega
  · have h : -(k : ℤ) < 0 ∧ e % (-(k : ℤ)).natAbs ≠ 0 := by rw [ha]; omega
    rw [stdStep, if_pos h, ha]
    simp only
    refine ⟨?_, by omega⟩
    rw [Nat.mul_add]; omega

/-- `k > 0`: the factored number is `m^k` times the remaining product. -/
theorem toStdForm_pos {k : ℕ} (hk : 0 < k) (l : List (ℕ × ℕ)) :
    factorizationValue l = (toStdForm k l).1 ^ k * factorizationValue (toStdForm k l).2 := by
  induction l with
  | nil => simp [toStdForm, factorizationValue]
  | cons p l ih =>
    have h := (stdStep_pos hk p.2).1
    simp only [toStdForm, factorizationValue, List.map_cons, List.prod_cons, List.map_map] at ih ⊢
    rw [ih]
    conv_lhs => rw [h]
    simp only [Function.comp_def]
    rw [pow_add, pow_mul']
    ring

/-- `k < 0`: the factored number times the remaining product is `m^k`. -/
theorem toStdForm_neg {k : ℕ} (hk : 0 < k) (l : List (ℕ × ℕ)) :
    factorizationValue l * factorizationValue (toStdForm (-(k : ℤ)) l).2 = (toStdForm (-(k : ℤ)) l).1 ^ k := by
  induction l with
  | nil => simp [toStdForm, factorizationValue]
  | cons p l ih =>
    have h := (stdStep_neg hk p.2).1
    simp only [toStdForm, factorizationValue, List.map_cons, List.prod_cons, List.map_map] at ih ⊢
    rw [mul_pow, ← ih, ← pow_mul, mul_comm _ k, ← h, pow_add]
    simp only [Function.comp_def]
    ring

theorem commonIndex_dvd {k : ℕ} (hk : 0 < k) (l : List (ℕ × ℕ)) :
    commonIndex k l ∣ k ∧ ∀ p ∈ l, commonIndex k l ∣ p.2 := by
  induction l generalizing k with
  | nil => simp [commonIndex]
  | cons p l ih =>
    rw [commonIndex, List.foldl_cons]
    by_cases h : 1 < k
    · rw [if_pos h]
      obtain ⟨h1, h2⟩ := ih (Nat.gcd_pos_of_pos_left p.2 hk)
      rw [commonIndex] at h1 h2
      refine ⟨h1.trans (Nat.gcd_dvd_left ..), ?_⟩
      intro q hq
      rcases List.mem_cons.mp hq with rfl | hq
      · exact h1.trans (Nat.gcd_dvd_right ..)
      · exact h2 q hq
    · rw [if_neg h]
      obtain ⟨h1, h2⟩ := ih hk
      rw [commonIndex] at h1 h2
      refine ⟨h1, ?_⟩
      intro q hq
      rcases List.mem_cons.mp hq with rfl | hq
      · have hk : k = 1 := by omega
        subst hk
        have : List.foldl (fun (gc : ℕ) (p : ℕ × ℕ) => if 1 < gc then gc.gcd p.2 else gc) 1 l = 1 :=
          Nat.dvd_one.mp h1
        rw [this]; exact one_dvd _
      · exact h2 q hq

theorem irrPart_pow {gc : ℕ} {l : List (ℕ × ℕ)} (h : ∀ p ∈ l, gc ∣ p.2) :
    (irrPart gc l) ^ gc = factorizationValue l := by
  induction l with
  | nil => simp [irrPart, factorizationValue]
  | cons p l ih =>
    have ih' := ih (fun q hq => h q (by simp [hq]))
    simp only [irrPart, factorizationValue, List.map_cons, List.prod_cons] at ih' ⊢
    rw [mul_pow, ih', ← pow_mul, Nat.div_mul_cancel (h p (by simp))]

/-- The integer content of lines 625-662: with `M`, `D` the two returned products and
`irr` the irrational part for the index `k / gc`,
`|num| · D^k = |den| · M^k · irr^gc`. -/
theorem reduce_core {k : ℕ} (hk : 0 < k) {num den : ℤ} (hn : num ≠ 0) (hd : den ≠ 0) :
    let n := toStdForm k (partialFactor num)
    let d := toStdForm (-(k : ℤ)) (partialFactor den)
    let gc := commonIndex k (n.2 ++ d.2)
    num.natAbs * d.1 ^ k = den.natAbs * (n.1 ^ k * irrPart gc (n.2 ++ d.2) ^ gc) ∧ gc ∣ k ∧
      0 < irrPart gc (n.2 ++ d.2) ∧ 0 < n.1 ∧ 0 < d.1 := by
  intro n d gc
  obtain ⟨g1, g2⟩ := commonIndex_dvd hk (n.2 ++ d.2)
  have hg : 0 < gc := Nat.pos_of_dvd_of_pos g1 hk
  have e1 := irrPart_pow g2
  have e2 := toStdForm_pos hk (partialFactor num)
  have e3 := toStdForm_neg hk (partialFactor den)
  have v1 := C04_partialFactor_value num hn
  have v2 := C04_partialFactor_value den hd
  rw [v1] at e2
  rw [v2] at e3
  have hnn : 0 < num.natAbs := by omega
  have hdd : 0 < den.natAbs := by omega
  change num.natAbs = n.1 ^ k * factorizationValue n.2 at e2
  change den.natAbs * factorizationValue d.2 = d.1 ^ k at e3
  change irrPart gc (n.2 ++ d.2) ^ gc = factorizationValue (n.2 ++ d.2) at e1
  rw [factorizationValue_append] at e1
  have p1 : 0 < factorizationValue n.2 := by
    rcases Nat.eq_zero_or_pos (factorizationValue n.2) with h | h
    · rw [h] at e2; omega
    · exact h
  have q1 : 0 < n.1 := by
    rcases Nat.eq_zero_or_pos n.1 with h | h
    · rw [h, zero_pow (by omega)] at e2; omega
    · exact h
  -- the entries of the denominator are positive
  have pb : ∀ p ∈ partialFactor den, 0 < p.1 := by
    intro p hp
    by_contra hc
    have h0 : p.1 = 0 := by omega
    by_cases h1 : den.natAbs = 1
    · rw [C04_partialFactor_unit den h1] at hp
      simp at hp
      rw [hp] at h0
      simp at h0
    · have := (C04_partialFactor_shape den (by omega)).1 p hp
      omega
  have q2 : 0 < d.1 := by
    refine Nat.pos_of_ne_zero (List.prod_ne_zero ?_)
    intro h
    obtain ⟨p, hp, hp0⟩ := List.mem_map.mp h
    exact absurd hp0 (pow_ne_zero _ (by have := pb p hp; omega))
  have p2 : 0 < factorizationValue d.2 := by
    rcases Nat.eq_zero_or_pos (factorizationValue d.2) with h | h
    · rw [h] at e3
      have := Nat.pow_pos (n := k) q2
      omega
    · exact h
  refine ⟨?_, g1, ?_, q1, q2⟩
  · rw [e1, e2, ← e3]; ring
  · rcases Nat.eq_zero_or_pos (irrPart gc (n.2 ++ d.2)) with h | h
    · rw [h, zero_pow (by omega)] at e1
      have := Nat.mul_pos p1 p2
      omega
    · exact h

/-! ## Values over the real numbers -/

/-- Powers have their usual real meaning. -/
def RealPow (I : Interp ℝ) : Prop := ∀ a b : ℝ, I.pw a b = a ^ b

variable {I : Interp ℝ} (hI : RealPow I) (ρ : String → ℝ)

include hI in
/-- Lines 625-664 with the sign `s`: the result is `s` times the positive real `k`-th
root of `|num| / |den|`. -/
theorem reduceTail_val {k : ℕ} (hk : 0 < k) {num den : ℤ} (hn : num ≠ 0) (hd : den ≠ 0) (s : Expr) :
    ∃ v : ℝ, 0 < v ∧ eval I ρ (reduceTail s k num den) = eval I ρ s * v ∧ v ^ k = (num.natAbs : ℝ) / den.natAbs := by
  obtain ⟨h1, h2, h3, h4, h5⟩ := reduce_core hk hn hd
  rw [reduceTail]
  set n := toStdForm k (partialFactor num)
  set d := toStdForm (-(k : ℤ)) (partialFactor den)
  set gc := commonIndex k (n.2 ++ d.2)
  set irr := irrPart gc (n.2 ++ d.2)
  have hg : 0 < gc := Nat.pos_of_dvd_of_pos h2 hk
  have hdd : 0 < den.natAbs := by omega
  have h1' : (num.natAbs : ℝ) * (d.1 : ℝ) ^ k = den.natAbs * ((n.1 : ℝ) ^ k * (irr : ℝ) ^ gc) := by exact_mod_cast h1
  have hd1 : (0 : ℝ) < d.1 := by exact_mod_cast h5
  have hn1 : (0 : ℝ) < n.1 := by exact_mod_cast h4
  have hdr : (0 : ℝ) < den.natAbs := by exact_mod_cast hdd
  have hir : (0 : ℝ) < irr := by exact_mod_cast h3
  have hkg : 0 < k / gc := Nat.div_pos (Nat.le_of_dvd hk h2) hg
  have hkg' : ((k / gc : ℕ) : ℝ) ≠ 0 := by exact_mod_cast hkg.ne'
  have hroot : ((irr : ℝ) ^ (1 / ((k / gc : ℕ) : ℝ))) ^ k = (irr : ℝ) ^ gc := by
    rw [← Real.rpow_natCast, ← Real.rpow_mul hir.le, ← Real.rpow_natCast (irr : ℝ) gc]
    congr 1
    have : (k : ℝ) = ((k / gc : ℕ) : ℝ) * gc := by exact_mod_cast (Nat.div_mul_cancel h2).symm
    rw [this]
    field_simp
  refine ⟨(n.1 : ℝ) / d.1 * (irr : ℝ) ^ (1 / ((k / gc : ℕ) : ℝ)), by positivity, ?_, ?_⟩
  · by_cases hi : 1 < irr
    · rw [if_pos hi, eval_mulE, eval_mulE, eval_powE, hI]
      simp only [eval, Rat.cast_natCast, Rat.cast_div, Rat.cast_one]
      ring
    · have : irr = 1 := by omega
      rw [if_neg hi, eval_mulE, this]
      simp [eval]
  · rw [mul_pow, hroot, div_pow]
    field_simp
    linarith

theorem topOf_ne {r : ℚ} (hr : r ≠ 0) (k : ℤ) : topOf k r ≠ 0 := by
  rw [topOf]; split
  · exact_mod_cast r.den_nz
  · exact Rat.num_ne_zero.mpr hr

theorem botOf_ne {r : ℚ} (hr : r ≠ 0) (k : ℤ) : botOf k r ≠ 0 := by
  rw [botOf]; split
  · exact Rat.num_ne_zero.mpr hr
  · exact_mod_cast r.den_nz

theorem absquot (r : ℚ) : ((r.num.natAbs : ℝ)) / (r.den : ℝ) = |(r : ℝ)| := by
  have h : (r : ℝ) = (r.num : ℝ) / r.den := by exact_mod_cast (Rat.num_div_den r).symm
  rw [h, abs_div, Nat.abs_cast, Nat.cast_natAbs]
  simp

/-- The quotient of the swapped numerator and denominator is `|r|^{±1}`. -/
theorem top_bot {r : ℚ} {k : ℤ} (hk : k ≠ 0) {v : ℝ}
    (h : v ^ k.natAbs = ((topOf k r).natAbs : ℝ) / (botOf k r).natAbs) : v ^ k = |(r : ℝ)| := by
  rcases lt_or_gt_of_ne hk with hk | hk
  · have e : k = -(k.natAbs : ℤ) := by omega
    rw [topOf, botOf, if_pos hk, if_pos hk] at h
    rw [e, zpow_neg, zpow_natCast, h, ← absquot, Int.natAbs_natCast]
    simp
  · have e : k = (k.natAbs : ℤ) := by omega
    have hk' : ¬ k < 0 := by omega
    rw [topOf, botOf, if_neg hk', if_neg hk', Int.natAbs_natCast] at h
    rw [e, zpow_natCast, h, absquot]

include hI in
/-- Every index: for positive `r` the value is positive and its `k`-th power is `r`. -/
theorem reduce_pos {k : ℤ} (hk : k ≠ 0) {r : ℚ} (hr : 0 < r) :
    0 < eval I ρ (reduceToStd k r) ∧ (eval I ρ (reduceToStd k r)) ^ k = (r : ℝ) := by
  have h0 : ¬ (0 < k ∧ r = 0) := fun h => hr.ne' h.2
  have hrr : (0 : ℝ) < r := by exact_mod_cast hr
  have hs : signE k r = .num 1 := by rw [signE, if_pos hr]
  rw [reduceToStd, if_neg h0]
  by_cases h1 : k.natAbs = 1
  · rw [if_pos h1, hs, eval_mulE]
    simp only [eval, Rat.cast_mul, Rat.cast_inv, Rat.cast_one, one_mul, Rat.cast_intCast]
    have hq : (r : ℝ) = (r.num : ℝ) / r.den := by exact_mod_cast (Rat.num_div_den r).symm
    have hnum : (0 : ℝ) < r.num := by exact_mod_cast Rat.num_pos.mpr hr
    have hden : (0 : ℝ) < r.den := by exact_mod_cast r.den_pos
    rcases (by omega : k = 1 ∨ k = -1) with rfl | rfl
    · simp only [topOf, botOf]
      norm_num
      exact ⟨by positivity, by rw [hq, div_eq_mul_inv]⟩
    · simp only [topOf, botOf]
      norm_num
      exact ⟨by positivity, by rw [hq, div_eq_mul_inv]⟩
  · rw [if_neg h1]
    obtain ⟨v, hv, he, hp⟩ := reduceTail_val hI ρ (k := k.natAbs) (by omega) (topOf_ne hr.ne' k) (botOf_ne hr.ne' k) (signE k r)
    rw [he, hs]
    have : eval I ρ (.num 1) = 1 := by simp [eval]
    rw [this, one_mul]
    exact ⟨hv, by rw [top_bot hk hp, abs_of_pos hrr]⟩

include hI in
/-- **C78**: for a positive rational number `r` and every index `k ≠ 0` (positive or
negative) the standard form denotes the real number `r^{1/k}`. -/
theorem C78_positive_root {k : ℤ} (hk : k ≠ 0) {r : ℚ} (hr : 0 < r) :
    eval I ρ (reduceToStd k r) = (r : ℝ) ^ (1 / (k : ℝ)) := by
  obtain ⟨h1, h2⟩ := reduce_pos hI ρ hk hr
  have hk' : (k : ℝ) ≠ 0 := by exact_mod_cast hk
  rw [← h2, ← Real.rpow_intCast, ← Real.rpow_mul h1.le, mul_one_div_cancel hk', Real.rpow_one]

include hI in
/-- **C78**: for a negative rational number and an odd index other than `±1` the standard
form denotes the real (negative) `k`-th root. -/
theorem C78_odd_root {k : ℤ} (hk : Odd k) (h1 : k.natAbs ≠ 1) {r : ℚ} (hr : r < 0) :
    eval I ρ (reduceToStd k r) < 0 ∧ (eval I ρ (reduceToStd k r)) ^ k = (r : ℝ) := by
  have h0 : ¬ (0 < k ∧ r = 0) := fun h => hr.ne h.2
  have hrr : (r : ℝ) < 0 := by exact_mod_cast hr
  have hk2 : ¬ k % 2 = 0 := by have := Int.odd_iff.mp hk; omega
  have hk0 : k ≠ 0 := by rintro rfl; simp at hk2
  have hs : signE k r = .num (-1) := by rw [signE, if_neg (by linarith), if_neg hk2]
  rw [reduceToStd, if_neg h0, if_neg h1]
  obtain ⟨v, hv, he, hp⟩ := reduceTail_val hI ρ (k := k.natAbs) (by omega) (topOf_ne hr.ne k) (botOf_ne hr.ne k) (signE k r)
  rw [he, hs]
  have : eval I ρ (.num (-1)) = -1 := by simp [eval]
  rw [this, neg_one_mul]
  exact ⟨by linarith, by rw [hk.neg_zpow, top_bot hk0 hp, abs_of_neg hrr, neg_neg]⟩

/-- **C78**: the roots of zero. -/
theorem C78_zero_root {k : ℤ} (hk : 0 < k) : eval I ρ (reduceToStd k 0) = 0 := by
  simp [reduceToStd, hk, eval]

theorem signedDen_ne (e : ℚ) : signedDen e ≠ 0 := by
  have := e.den_pos
  rw [signedDen]; split <;> omega

theorem signedDen_val (e : ℚ) : (e : ℝ) = (e.num.natAbs : ℝ) / (signedDen e : ℝ) := by
  have hq : (e : ℝ) = (e.num : ℝ) / e.den := by exact_mod_cast (Rat.num_div_den e).symm
  rw [signedDen]
  by_cases h : 0 < e.num
  · rw [if_pos h, hq]
    have : (e.num.natAbs : ℤ) = e.num := by omega
    have h2 : (e.num : ℝ) = (e.num.natAbs : ℝ) := by
      rw [← Int.cast_natCast (R := ℝ) e.num.natAbs, this]
    rw [h2]; simp
  · rw [if_neg h, hq]
    have : (e.num.natAbs : ℤ) = -e.num := by omega
    have h2 : (e.num.natAbs : ℝ) = -(e.num : ℝ) := by
      rw [← Int.cast_natCast (R := ℝ) e.num.natAbs, this, Int.cast_neg]
    rw [h2]; push_cast; rw [neg_div_neg_eq]

include hI in
/-- **C78**: the product of two numeric powers with positive rational bases (any rational
exponents) keeps its value. -/
theorem C78_red_prod {b1 e1 b2 e2 : ℚ} (h1 : 0 < b1) (h2 : 0 < b2) :
    eval I ρ (redProd b1 e1 b2 e2) = (b1 : ℝ) ^ (e1 : ℝ) * (b2 : ℝ) ^ (e2 : ℝ) := by
  have n1 := signedDen_ne e1
  have n2 := signedDen_ne e2
  have v1 := signedDen_val e1
  have v2 := signedDen_val e2
  rw [redProd]
  set d1 := signedDen e1
  set d2 := signedDen e2
  set g : ℤ := ((Int.gcd d1 d2 : ℕ) : ℤ) with hg
  have hg0 : g ≠ 0 := by
    rw [hg]; exact_mod_cast (Int.gcd_ne_zero_left n1)
  obtain ⟨a1, ha1⟩ : g ∣ d1 := Int.gcd_dvd_left ..
  obtain ⟨a2, ha2⟩ : g ∣ d2 := Int.gcd_dvd_right ..
  have q1 : d1 / g = a1 := by rw [ha1]; exact Int.mul_ediv_cancel_left _ hg0
  have q2 : d2 / g = a2 := by rw [ha2]; exact Int.mul_ediv_cancel_left _ hg0
  have q3 : d1 * d2 / g = d1 * a2 := by
    rw [show d1 * d2 = g * (d1 * a2) by rw [ha2]; ring]; exact Int.mul_ediv_cancel_left _ hg0
  have a10 : a1 ≠ 0 := by rintro rfl; simp at ha1; exact n1 ha1
  have a20 : a2 ≠ 0 := by rintro rfl; simp at ha2; exact n2 ha2
  have hb1 : (0 : ℝ) < b1 := by exact_mod_cast h1
  have hb2 : (0 : ℝ) < b2 := by exact_mod_cast h2
  rw [C78_positive_root hI ρ (by rw [q3]; exact mul_ne_zero n1 a20) (by positivity), q1, q2, q3]
  push_cast
  rw [Real.mul_rpow (by positivity) (by positivity), v1, v2]
  have rg : (g : ℝ) ≠ 0 := by exact_mod_cast hg0
  have r1 : (d1 : ℝ) ≠ 0 := by exact_mod_cast n1
  have r2 : (d2 : ℝ) ≠ 0 := by exact_mod_cast n2
  have r3 : (a1 : ℝ) ≠ 0 := by exact_mod_cast a10
  have r4 : (a2 : ℝ) ≠ 0 := by exact_mod_cast a20
  have c1 : (d1 : ℝ) = g * a1 := by exact_mod_cast ha1
  have c2 : (d2 : ℝ) = g * a2 := by exact_mod_cast ha2
  rw [← Real.rpow_natCast, ← Real.rpow_intCast, ← Real.rpow_natCast, ← Real.rpow_intCast, ← Real.rpow_mul hb1.le,
    ← Real.rpow_mul hb1.le, ← Real.rpow_mul hb2.le, ← Real.rpow_mul hb2.le]
  congr 2
  · field_simp
  · rw [c1, c2]; field_simp

/-! ## `reduce_product` -/

/-- A number, a power of two numbers, or the product of both. -/
def RootShape (t : Expr) : Prop :=
  (∃ q : ℚ, 0 < q ∧ t = .num q) ∨ (∃ b e : ℚ, 0 < b ∧ t = .pow (.num b) (.num e)) ∨
    ∃ q b e : ℚ, 0 < q ∧ 0 < b ∧ t = .mul [.num q, .pow (.num b) (.num e)]

theorem rootShape_mul {q b : ℚ} (hq : 0 < q) (hb : 0 < b) (e : ℚ) :
    RootShape (mulE (.num q) (powE (.num b) (.num e))) := by
  rw [powE]
  by_cases h1 : e.den = 1
  · rw [if_pos h1, mulE]; exact Or.inl ⟨_, by positivity, rfl⟩
  · rw [if_neg h1]
    by_cases h2 : b = 1
    · rw [if_pos h2, mulE]; exact Or.inl ⟨_, by positivity, rfl⟩
    · rw [if_neg h2]
      simp only [mulE]
      rw [if_neg hq.ne']
      by_cases h3 : q = 1
      · rw [if_pos h3]; exact Or.inr (Or.inl ⟨b, e, hb, rfl⟩)
      · rw [if_neg h3]; exact Or.inr (Or.inr ⟨q, b, e, hq, hb, rfl⟩)

theorem reduce_shape {k : ℤ} (hk : k ≠ 0) {r : ℚ} (hr : 0 < r) : RootShape (reduceToStd k r) := by
  have h0 : ¬ (0 < k ∧ r = 0) := fun h => hr.ne' h.2
  have hs : signE k r = .num 1 := by rw [signE, if_pos hr]
  have hnum : 0 < r.num := Rat.num_pos.mpr hr
  have hden : 0 < r.den := r.den_pos
  rw [reduceToStd, if_neg h0, hs]
  by_cases h1 : k.natAbs = 1
  · rw [if_pos h1, mulE]
    refine Or.inl ⟨_, ?_, rfl⟩
    rw [topOf, botOf]
    have a : (0 : ℚ) < r.num := by exact_mod_cast hnum
    have b : (0 : ℚ) < r.den := by exact_mod_cast hden
    split <;> push_cast <;> positivity
  · rw [if_neg h1, reduceTail]
    obtain ⟨-, -, h3, h4, h5⟩ := reduce_core (k := k.natAbs) (by omega) (topOf_ne hr.ne' k) (botOf_ne hr.ne' k)
    simp only [mulE, one_mul]
    have hq : (0 : ℚ) < ((toStdForm (k.natAbs : ℤ) (partialFactor (topOf k r))).1 : ℚ) /
        ((toStdForm (-(k.natAbs : ℤ)) (partialFactor (botOf k r))).1 : ℚ) := by
      exact div_pos (Nat.cast_pos.mpr h4) (Nat.cast_pos.mpr h5)
    split
    · exact rootShape_mul hq (by exact_mod_cast h3) _
    · exact Or.inl ⟨_, hq, rfl⟩

theorem redProd_shape {b1 e1 b2 e2 : ℚ} (h1 : 0 < b1) (h2 : 0 < b2) : RootShape (redProd b1 e1 b2 e2) := by
  rw [redProd]
  refine reduce_shape ?_ (by positivity)
  have n1 := signedDen_ne e1
  have n2 := signedDen_ne e2
  obtain ⟨a2, ha2⟩ : ((signedDen e1).gcd (signedDen e2) : ℤ) ∣ signedDen e2 := Int.gcd_dvd_right ..
  have hg0 : ((signedDen e1).gcd (signedDen e2) : ℤ) ≠ 0 := by exact_mod_cast (Int.gcd_ne_zero_left n1)
  have a20 : a2 ≠ 0 := by rintro rfl; simp at ha2; exact n2 ha2
  have q3 : signedDen e1 * signedDen e2 / ((signedDen e1).gcd (signedDen e2) : ℤ) = signedDen e1 * a2 := by
    rw [show signedDen e1 * signedDen e2 = ((signedDen e1).gcd (signedDen e2) : ℤ) * (signedDen e1 * a2) by
      conv_lhs => rw [ha2]
      ring]
    exact Int.mul_ediv_cancel_left _ hg0
  simp only [q3]
  exact mul_ne_zero n1 a20

/-- The accumulated power is the pair `base_1`, `exp_1`. -/
def StOk (I : Interp ℝ) (ρ : String → ℝ) (s : St) (v : ℝ) : Prop :=
  0 < s.base1 ∧ eval I ρ s.toReduce = (s.base1 : ℝ) ^ (s.exp1 : ℝ) ∧ eval I ρ s.toReduce * eval I ρ s.noReduce = v

include hI in
theorem absorb_ok {t : Expr} (ht : RootShape t) {s : St} {u v : ℝ} (hn : eval I ρ s.noReduce = u)
    (hv : eval I ρ t * u = v) : ∃ s', absorb t s = some s' ∧ StOk I ρ s' v := by
  rcases ht with ⟨q, hq, rfl⟩ | ⟨b, e, hb, rfl⟩ | ⟨q, b, e, hq, hb, rfl⟩
  · refine ⟨_, rfl, hq, ?_, ?_⟩
    · simp [eval]
    · simpa [hn] using hv
  · refine ⟨_, rfl, hb, ?_, ?_⟩
    · simp [eval_powE, eval, hI _ _]
    · simpa [hn, eval_powE, eval] using hv
  · refine ⟨_, rfl, ?_⟩
    simp only [List.foldr_cons, List.foldr_nil, takeFactor]
    refine ⟨hb, ?_, ?_⟩
    · simp [eval_powE, eval, hI _ _]
    · simp only [eval_powE, eval_mulE, eval, List.map_cons, List.map_nil, List.prod_cons, List.prod_nil, hn] at hv ⊢
      rw [← hv]; ring

/-- Numeric powers among the factors have positive bases. -/
def PosNumPows (l : List Expr) : Prop := ∀ b e : ℚ, Expr.pow (.num b) (.num e) ∈ l → 0 < b

include hI in
theorem prodLoop_ok {l : List Expr} (h : PosNumPows l) :
    ∃ s, prodLoop l = some s ∧ StOk I ρ s ((l.map (eval I ρ)).prod) := by
  induction l with
  | nil => exact ⟨_, rfl, by norm_num, by simp [eval], by simp [eval]⟩
  | cons f l ih =>
    obtain ⟨s, hs, k1, k2, k3⟩ := ih (fun b e hbe => h b e (by simp [hbe]))
    rw [prodLoop, hs, Option.bind_some]
    by_cases hf : ∃ b e : ℚ, f = .pow (.num b) (.num e)
    · obtain ⟨b, e, rfl⟩ := hf
      have hb : 0 < b := h b e (by simp)
      refine absorb_ok hI ρ (redProd_shape k1 hb) rfl ?_
      rw [C78_red_prod hI ρ k1 hb, ← k2, List.map_cons, List.prod_cons, ← k3, eval, hI]
      simp only [eval]
      ring
    · have : prodStep f s = some { s with noReduce := mulE s.noReduce f } := by
        unfold prodStep
        split
        · rename_i b e
          exact (hf ⟨b, e, rfl⟩).elim
        · rfl
      refine ⟨_, this, k1, k2, ?_⟩
      simp only [eval_mulE, List.map_cons, List.prod_cons, ← k3]
      ring

include hI in
/-- **C78**: the product of any number of factors, where the numeric powers have positive
bases, is rewritten to an expression of the same value. -/
theorem C78_reduce_product {l : List Expr} (h : PosNumPows l) :
    ∃ r, reduceProduct l = some r ∧ eval I ρ r = eval I ρ (.mul l) := by
  obtain ⟨s, hs, -, -, hv⟩ := prodLoop_ok hI ρ h
  refine ⟨mulE s.toReduce s.noReduce, by simp [reduceProduct, hs], ?_⟩
  rw [eval_mulE, hv]
  simp [eval]

/-! ## Factorizations used below -/

theorem pf1 : partialFactor 1 = [(1, 1)] := C04_partialFactor_unit 1 rfl

theorem pf2 : partialFactor 2 = [(2, 1)] := by
  have h1 : stripFactor 2 1 1 = (1, 1) := by rw [stripFactor]; simp
  have h2 : stripFactor 2 2 0 = (1, 1) := by rw [stripFactor]; simp [h1]
  have h3 : factorLoop 100 3 1 [(2, 1)] = (1, [(2, 1)]) := by rw [factorLoop]; simp
  simp [partialFactor, h2, h3]

theorem pf4 : partialFactor 4 = [(2, 2)] := by
  have h0 : stripFactor 2 1 2 = (1, 2) := by rw [stripFactor]; simp
  have h1 : stripFactor 2 2 1 = (1, 2) := by rw [stripFactor]; simp [h0]
  have h2 : stripFactor 2 4 0 = (1, 2) := by rw [stripFactor]; simp [h1]
  have h3 : factorLoop 100 3 1 [(2, 2)] = (1, [(2, 2)]) := by rw [factorLoop]; simp
  simp [partialFactor, h2, h3]

theorem pfm8 : partialFactor (-8) = [(2, 3)] := by
  have h0 : stripFactor 2 1 3 = (1, 3) := by rw [stripFactor]; simp
  have h1 : stripFactor 2 2 2 = (1, 3) := by rw [stripFactor]; simp [h0]
  have h2 : stripFactor 2 4 1 = (1, 3) := by rw [stripFactor]; simp [h1]
  have h2 : stripFactor 2 8 0 = (1, 3) := by rw [stripFactor]; simp [h2]
  have h3 : factorLoop 100 3 1 [(2, 3)] = (1, [(2, 3)]) := by rw [factorLoop]; simp
  simp [partialFactor, h2, h3]

theorem pf12 : partialFactor 12 = [(2, 2), (3, 1)] := by
  have h0 : stripFactor 2 3 2 = (3, 2) := by rw [stripFactor]; simp
  have h1 : stripFactor 2 6 1 = (3, 2) := by rw [stripFactor]; simp [h0]
  have h2 : stripFactor 2 12 0 = (3, 2) := by rw [stripFactor]; simp [h1]
  have h3 : factorLoop 100 3 3 [(2, 2)] = (3, [(2, 2)]) := by rw [factorLoop]; simp
  simp [partialFactor, h2, h3]

/-- `12^{1/2} = 2 · 3^{1/2}`. -/
theorem reduce_12 : reduceToStd 2 12 = .mul [.num 2, .pow (.num 3) (.num (1 / 2))] := by
  have e : (1 : ℚ) / 2 ≠ 1 := by norm_num
  have e2 : ((1 : ℚ) / 2).den ≠ 1 := by norm_num
  simp only [reduceToStd, signE, topOf, botOf]
  norm_num [reduceTail, pf12, pf1, toStdForm, stdStep, commonIndex, irrPart, mulE, powE]

/-- `(-8)^{1/3} = -2`. -/
theorem reduce_m8 : reduceToStd 3 (-8) = .num (-2) := by
  simp only [reduceToStd, signE, topOf, botOf]
  norm_num [reduceTail, pfm8, pf1, toStdForm, stdStep, commonIndex, irrPart, mulE, powE]

/-- `4^{1/4}` is left as it is: the factorization `1^1` of the denominator has the
exponent `3` after the reduction, so that the common index is `1`. -/
theorem reduce_4 : reduceToStd 4 4 = .pow (.num 4) (.num (1 / 4)) := by
  simp only [reduceToStd, signE, topOf, botOf]
  norm_num [reduceTail, pf4, pf1, toStdForm, stdStep, commonIndex, irrPart, mulE, powE]

theorem reduce_2 : reduceToStd 2 2 = .pow (.num 2) (.num (1 / 2)) := by
  simp only [reduceToStd, signE, topOf, botOf]
  norm_num [reduceTail, pf2, pf1, toStdForm, stdStep, commonIndex, irrPart, mulE, powE]

theorem realPow_real (ξ : ℝ → ℝ) : RealPow (realInterp ξ) := fun _ _ => rfl

/-- The hypotheses of **C78** are met: `x · 12^{1/2}` is rewritten to `3^{1/2} · 2 · x`. -/
theorem C78_nonvacuous (ξ : ℝ → ℝ) (ρ : String → ℝ) :
    PosNumPows [.sym "x", .pow (.num 12) (.num (1 / 2))] ∧
    reduceProduct [.sym "x", .pow (.num 12) (.num (1 / 2))] =
      some (.mul [.pow (.num 3) (.num (1 / 2)), .num 2, .sym "x"]) ∧
    eval (realInterp ξ) ρ (reduceToStd 2 12) = (12 : ℝ) ^ ((1 : ℝ) / 2) := by
  have hr : redProd 1 1 12 (1 / 2) = .mul [.num 2, .pow (.num 3) (.num (1 / 2))] := by
    rw [← reduce_12]
    norm_num [redProd, signedDen]
  refine ⟨?_, ?_, ?_⟩
  · intro b e h
    simp at h
    rw [h.1]; norm_num
  · simp only [reduceProduct, prodLoop, Option.bind_some, prodStep, hr, absorb, List.foldr_cons, List.foldr_nil,
      takeFactor, Option.map_some]
    norm_num [mulE, powE]
  · have := C78_positive_root (realPow_real ξ) ρ (k := 2) (by norm_num) (r := 12) (by norm_num)
    rw [this]; norm_num

/-! ## C79: negative radicands -/

/-- Powers have their principal complex meaning and `I` is the imaginary unit. -/
structure ComplexPow (J : Interp ℂ) : Prop where
  pw : ∀ a b : ℂ, J.pw a b = a ^ b
  unit : J.const "I" = Complex.I

theorem reduceTail_complex {J : Interp ℂ} (hJ : ComplexPow J) (ρ : String → ℂ) {k : ℕ} (hk : 0 < k) {num den : ℤ}
    (hn : num ≠ 0) (hd : den ≠ 0) (s : Expr) :
    ∃ v : ℝ, 0 < v ∧ eval J ρ (reduceTail s k num den) = eval J ρ s * (v : ℂ) ∧ v ^ k = (num.natAbs : ℝ) / den.natAbs := by
  obtain ⟨v, hv, he, hp⟩ := reduceTail_val (realPow_real fun x => x) (fun _ => 0) hk hn hd (.num 1)
  refine ⟨v, hv, ?_, hp⟩
  have one : eval (realInterp fun x => x) (fun _ => 0) (.num 1) = 1 := by simp [eval]
  rw [one, one_mul] at he
  rw [reduceTail] at he ⊢
  split at he
  · rename_i h
    rw [if_pos h, eval_mulE, eval_mulE, eval_powE, hJ.pw, ← he, eval_mulE, eval_mulE, eval_powE]
    simp only [eval, Rat.cast_one, one_mul, Rat.cast_natCast, Rat.cast_div, Complex.ofReal_mul, Complex.ofReal_div,
      Complex.ofReal_natCast, realInterp]
    rw [Complex.ofReal_cpow (Nat.cast_nonneg _)]
    push_cast
    ring
  · rename_i h
    rw [if_neg h, eval_mulE, ← he, eval_mulE]
    simp [eval]

/-- For a negative number and an even index the value is a purely imaginary number whose
`k`-th power is `I^k · |r|`. -/
theorem reduce_even {J : Interp ℂ} (hJ : ComplexPow J) (ρ : String → ℂ) {k : ℤ} (hk : Even k) (hk0 : k ≠ 0) {r : ℚ} (hr : r < 0) :
    (eval J ρ (reduceToStd k r)) ^ k = Complex.I ^ k * ((-r : ℚ) : ℂ) := by
  have h0 : ¬ (0 < k ∧ r = 0) := fun h => hr.ne h.2
  have hrr : (r : ℝ) < 0 := by exact_mod_cast hr
  have hk2 : k % 2 = 0 := Int.even_iff.mp hk
  have h1 : k.natAbs ≠ 1 := by omega
  rw [reduceToStd, if_neg h0, if_neg h1]
  obtain ⟨v, hv, he, hp⟩ := reduceTail_complex hJ ρ (k := k.natAbs) (by omega) (topOf_ne hr.ne k) (botOf_ne hr.ne k) (signE k r)
  have hvk := top_bot hk0 hp
  rw [abs_of_neg hrr] at hvk
  have hs : (eval J ρ (signE k r)) ^ k = Complex.I ^ k := by
    rw [signE, if_neg (by linarith), if_pos hk2]
    split
    · rw [eval, hJ.unit]
    · rw [eval_negE, eval, hJ.unit, hk.neg_zpow]
  rw [he, mul_zpow, hs]
  congr 1
  have : ((v ^ k : ℝ) : ℂ) = ((-(r : ℝ) : ℝ) : ℂ) := by rw [hvk]
  push_cast at this ⊢
  exact this

/-- **C79**: negative radicand and an index `k ≡ 2 (mod 4)`: a `k`-th root is returned.
The full claim (every even index) is false, see `C79_fourth_root_refuted`. -/
theorem C79_even_root_partial {J : Interp ℂ} (hJ : ComplexPow J) (ρ : String → ℂ) {k : ℤ} (hk : k % 4 = 2) {r : ℚ} (hr : r < 0) :
    (eval J ρ (reduceToStd k r)) ^ k = (r : ℂ) := by
  rw [reduce_even hJ ρ (Int.even_iff.mpr (by omega)) (by rintro rfl; simp at hk) hr]
  obtain ⟨m, rfl⟩ : ∃ m, k = 4 * m + 2 := ⟨k / 4, by omega⟩
  rw [zpow_add₀ Complex.I_ne_zero, zpow_mul]
  have h4 : Complex.I ^ (4 : ℤ) = 1 := by exact_mod_cast Complex.I_pow_four
  have h2 : Complex.I ^ (2 : ℤ) = -1 := by exact_mod_cast Complex.I_sq
  rw [h4, h2, one_zpow]
  push_cast; ring

/-- **C79** is false for indices divisible by 4: the `k`-th power of the result is `-r`. -/
theorem C79_fourth_root_refuted {J : Interp ℂ} (hJ : ComplexPow J) (ρ : String → ℂ) {k : ℤ} (hk : k % 4 = 0) (hk0 : k ≠ 0)
    {r : ℚ} (hr : r < 0) :
    (eval J ρ (reduceToStd k r)) ^ k = ((-r : ℚ) : ℂ) ∧ (eval J ρ (reduceToStd k r)) ^ k ≠ (r : ℂ) := by
  have h : (eval J ρ (reduceToStd k r)) ^ k = ((-r : ℚ) : ℂ) := by
    rw [reduce_even hJ ρ (Int.even_iff.mpr (by omega)) hk0 hr]
    obtain ⟨m, rfl⟩ : ∃ m, k = 4 * m := ⟨k / 4, by omega⟩
    rw [zpow_mul]
    have h4 : Complex.I ^ (4 : ℤ) = 1 := by exact_mod_cast Complex.I_pow_four
    rw [h4, one_zpow, one_mul]
  refine ⟨h, ?_⟩
  rw [h]
  intro h
  have : (-r : ℚ) = r := by exact_mod_cast h
  linarith

/-- **C79** is false for the index `1`: a negative number loses its sign. -/
theorem C79_first_root_refuted (J : Interp ℝ) (ρ : String → ℝ) {r : ℚ} (hr : r < 0) :
    eval J ρ (reduceToStd 1 r) = ((-r : ℚ) : ℝ) ∧ eval J ρ (reduceToStd 1 r) ≠ (r : ℝ) := by
  have h : eval J ρ (reduceToStd 1 r) = ((-r : ℚ) : ℝ) := by
    have h0 : ¬ ((0 : ℤ) < 1 ∧ r = 0) := fun h => hr.ne h.2
    have hs : signE 1 r = .num (-1) := by rw [signE, if_neg (by linarith), if_neg (by norm_num)]
    have hq : (r.num : ℚ) * (r.den : ℚ)⁻¹ = r := by
      rw [← div_eq_mul_inv]; exact Rat.num_div_den r
    rw [reduceToStd, if_neg h0, if_pos (by simp : Int.natAbs 1 = 1), hs, topOf, botOf, if_neg (by norm_num), if_neg (by norm_num), eval_mulE]
    simp only [eval, Int.cast_natCast, hq]
    push_cast; ring
  refine ⟨h, ?_⟩
  rw [h]
  intro h
  have : (-r : ℚ) = r := by exact_mod_cast h
  linarith

/-- **C79** is false for products: `(-8)^{1/3}` alone is rewritten to `-2`, but
`3^{1/2} (-8)^{1/3}` is rewritten to the positive number `2 · 3^{1/2}`. -/
theorem C79_product_refuted {I : Interp ℝ} (hI : RealPow I) (ρ : String → ℝ) :
    ∃ r s, reduceProduct [.pow (.num (-8)) (.num (1 / 3))] = some r ∧
      reduceProduct [.pow (.num 3) (.num (1 / 2)), .pow (.num (-8)) (.num (1 / 3))] = some s ∧
      eval I ρ r = -2 ∧ eval I ρ s = 2 * (3 : ℝ) ^ ((1 : ℝ) / 2) ∧
      eval I ρ s ≠ (3 : ℝ) ^ ((1 : ℝ) / 2) * eval I ρ r := by
  have h1 : redProd 1 1 (-8) (1 / 3) = .num (-2) := by
    rw [← reduce_m8]; norm_num [redProd, signedDen]
  have h2 : redProd (-2) 1 3 (1 / 2) = .mul [.num 2, .pow (.num 3) (.num (1 / 2))] := by
    rw [← reduce_12]; norm_num [redProd, signedDen]
  have e1 : reduceProduct [.pow (.num (-8)) (.num (1 / 3))] = some (.num (-2)) := by
    simp only [reduceProduct, prodLoop, Option.bind_some, prodStep, h1, absorb, Option.map_some]
    norm_num [mulE]
  have e2 : reduceProduct [.pow (.num 3) (.num (1 / 2)), .pow (.num (-8)) (.num (1 / 3))] =
      some (.mul [.pow (.num 3) (.num (1 / 2)), .num 2]) := by
    simp only [reduceProduct, prodLoop, Option.bind_some, prodStep, h1, h2, absorb, Option.map_some, List.foldr_cons,
      List.foldr_nil, takeFactor]
    norm_num [mulE, powE]
  have hs : (0 : ℝ) < (3 : ℝ) ^ ((1 : ℝ) / 2) := by positivity
  have v2 : eval I ρ (.mul [.pow (.num 3) (.num (1 / 2)), .num 2]) = 2 * (3 : ℝ) ^ ((1 : ℝ) / 2) := by
    simp [eval, hI _ _]; ring
  have v1 : eval I ρ (.num (-2)) = -2 := by simp [eval]
  refine ⟨_, _, e1, e2, v1, v2, ?_⟩
  rw [v1, v2]
  intro h
  linarith

/-! ## C80: the standard form -/

/-- **C80** is false: `4^{1/4}` and `2^{1/2}` are the same number but have different
standard forms. -/
theorem C80_unique_refuted {I : Interp ℝ} (hI : RealPow I) (ρ : String → ℝ) :
    eval I ρ (reduceToStd 4 4) = eval I ρ (reduceToStd 2 2) ∧ reduceToStd 4 4 ≠ reduceToStd 2 2 := by
  refine ⟨?_, ?_⟩
  · rw [C78_positive_root hI ρ (by norm_num) (by norm_num), C78_positive_root hI ρ (by norm_num) (by norm_num)]
    have : ((4 : ℚ) : ℝ) = (2 : ℝ) ^ (2 : ℝ) := by norm_num
    rw [this, ← Real.rpow_mul (by norm_num)]
    norm_num
  · rw [reduce_4, reduce_2]
    simp

theorem not_pow_dvd_list {p j : ℕ} (hp : p.Prime) {gc : ℕ} {l : List (ℕ × ℕ)}
    (hb : ∀ q ∈ l, p ∣ q.1 → p = q.1) (he : ∀ q ∈ l, q.2 / gc < j) (hn : (l.map Prod.fst).count p ≤ 1) (hj : 0 < j) :
    ¬ p ^ j ∣ irrPart gc l := by
  have cop : ∀ l : List (ℕ × ℕ), (∀ q ∈ l, ¬ p ∣ q.1) → Nat.Coprime p (irrPart gc l) := by
    intro l h
    induction l with
    | nil => simp [irrPart]
    | cons q l ih =>
      simp only [irrPart, List.map_cons, List.prod_cons] at ih ⊢
      refine Nat.Coprime.mul_right ?_ (ih fun q hq => h q (by simp [hq]))
      exact Nat.Coprime.pow_right _ ((Nat.Prime.coprime_iff_not_dvd hp).mpr (h q (by simp)))
  induction l with
  | nil =>
    simp only [irrPart, List.map_nil, List.prod_nil, Nat.dvd_one]
    intro h
    have := Nat.one_lt_pow hj.ne' hp.one_lt
    omega
  | cons q l ih =>
    have hl := ih (fun q hq => hb q (by simp [hq])) (fun q hq => he q (by simp [hq]))
      (le_trans (by simp [List.count_cons]) hn)
    intro h
    simp only [irrPart, List.map_cons, List.prod_cons] at h hl
    by_cases hq : p ∣ q.1
    · have hpq := hb q (by simp) hq
      have hno : ∀ q ∈ l, ¬ p ∣ q.1 := by
        intro q' hq' hd
        have e := hb q' (by simp [hq']) hd
        have hm : p ∈ l.map Prod.fst := List.mem_map.mpr ⟨q', hq', e.symm⟩
        have := List.count_pos_iff.mpr hm
        rw [List.map_cons, List.count_cons, ← hpq] at hn
        simp at hn
        omega
      have hc := cop l hno
      simp only [irrPart] at hc
      have := (Nat.Coprime.pow_left j hc).dvd_of_dvd_mul_right h
      rw [← hpq] at this
      have := (Nat.pow_dvd_pow_iff_le_right hp.one_lt).mp this
      have := he q (by simp)
      omega
    · have hc : Nat.Coprime (p ^ j) (q.1 ^ (q.2 / gc)) :=
        Nat.Coprime.pow _ _ ((Nat.Prime.coprime_iff_not_dvd hp).mpr hq)
      exact hl (hc.dvd_of_dvd_mul_left h)

theorem count_append_le {p : ℕ} {l m : List ℕ} (h1 : l.Nodup) (h2 : m.Nodup) (h : ¬ (p ∈ l ∧ p ∈ m)) :
    (l ++ m).count p ≤ 1 := by
  rw [List.count_append]
  have a := List.nodup_iff_count_le_one.mp h1 p
  have b := List.nodup_iff_count_le_one.mp h2 p
  by_cases c : p ∈ l
  · have : p ∉ m := fun hm => h ⟨c, hm⟩
    rw [List.count_eq_zero.mpr this]; omega
  · rw [List.count_eq_zero.mpr c]; omega

theorem partialFactor_nodup {n : ℤ} (hn : n ≠ 0) : ((partialFactor n).map Prod.fst).Nodup := by
  by_cases h : n.natAbs = 1
  · rw [C04_partialFactor_unit n h]; simp
  · exact (C04_partialFactor_shape n (by omega)).2

theorem partialFactor_prime {n : ℤ} (hn : n ≠ 0) {b : ℕ × ℕ} {p : ℕ} (hb : b ∈ partialFactor n) (hp : p.Prime) (h : p < 101)
    (hd : p ∣ b.1) : p = b.1 ∧ p ∣ n.natAbs := by
  by_cases h1 : n.natAbs = 1
  · rw [C04_partialFactor_unit n h1] at hb
    simp at hb
    rw [hb] at hd
    exact absurd (Nat.dvd_one.mp hd) hp.one_lt.ne'
  · rcases C04_partialFactor_small_primes n (by omega) hb hp hd with h | h
    · refine ⟨h, ?_⟩
      rw [← C04_partialFactor_value n hn, factorizationValue]
      have he := ((C04_partialFactor_shape n (by omega)).1 b hb).1
      exact (hd.trans (dvd_pow_self _ (by omega))).trans (List.dvd_prod (List.mem_map.mpr ⟨b, hb, rfl⟩))
    · omega

/-- **C80**: the shape that is guaranteed.  For a positive number the result is a rational
number times `irr^{1/j}`, where `j` divides the index and `irr` is not divisible by the
`j`-th power of a prime below 101.  Larger primes and the minimality of `j` are missing
(see `C80_unique_refuted`). -/
theorem C80_power_free_partial {k : ℤ} (hk : 2 ≤ k.natAbs) {r : ℚ} (hr : 0 < r) :
    ∃ (q : ℚ) (irr j : ℕ), 0 < q ∧ 0 < irr ∧ 0 < j ∧ (j : ℤ) ∣ k ∧
      reduceToStd k r = (if 1 < irr then mulE (.num q) (powE (.num irr) (.num (1 / (j : ℚ)))) else .num q) ∧
      ∀ p : ℕ, p.Prime → p < 101 → ¬ p ^ j ∣ irr := by
  have h0 : ¬ (0 < k ∧ r = 0) := fun h => hr.ne' h.2
  have h1 : ¬ k.natAbs = 1 := by omega
  have hs : signE k r = .num 1 := by rw [signE, if_pos hr]
  have hk0 : 0 < k.natAbs := by omega
  have ht := topOf_ne hr.ne' k
  have hb := botOf_ne hr.ne' k
  obtain ⟨-, h2, h3, h4, h5⟩ := reduce_core hk0 ht hb
  obtain ⟨g1, g2⟩ := commonIndex_dvd hk0 ((toStdForm (k.natAbs : ℤ) (partialFactor (topOf k r))).2 ++
    (toStdForm (-(k.natAbs : ℤ)) (partialFactor (botOf k r))).2)
  have hcop : Nat.Coprime (topOf k r).natAbs (botOf k r).natAbs := by
    have := r.reduced
    rw [topOf, botOf]; split
    · rw [Int.natAbs_natCast]; exact this.symm
    · rw [Int.natAbs_natCast]; exact this
  have hg : 0 < commonIndex k.natAbs ((toStdForm (k.natAbs : ℤ) (partialFactor (topOf k r))).2 ++
    (toStdForm (-(k.natAbs : ℤ)) (partialFactor (botOf k r))).2) := Nat.pos_of_dvd_of_pos g1 hk0
  refine ⟨_, _, _, div_pos (Nat.cast_pos.mpr h4) (Nat.cast_pos.mpr h5), h3,
    Nat.div_pos (Nat.le_of_dvd hk0 h2) hg, ?_, ?_, ?_⟩
  · exact Int.natCast_dvd.mpr (Nat.div_dvd_of_dvd h2)
  · rw [reduceToStd, if_neg h0, if_neg h1, hs, reduceTail]
    simp only [mulE, one_mul]
  · intro p hp hp101
    have shape : ∀ q ∈ (toStdForm (k.natAbs : ℤ) (partialFactor (topOf k r))).2 ++
        (toStdForm (-(k.natAbs : ℤ)) (partialFactor (botOf k r))).2, q.2 < k.natAbs ∧ (p ∣ q.1 → p = q.1) := by
      intro q hq
      rcases List.mem_append.mp hq with hq | hq
      · obtain ⟨q', hq', rfl⟩ := List.mem_map.mp hq
        exact ⟨(stdStep_pos hk0 q'.2).2, fun hd => (partialFactor_prime ht hq' hp hp101 hd).1⟩
      · obtain ⟨q', hq', rfl⟩ := List.mem_map.mp hq
        exact ⟨(stdStep_neg hk0 q'.2).2, fun hd => (partialFactor_prime hb hq' hp hp101 hd).1⟩
    refine not_pow_dvd_list hp (fun q hq => (shape q hq).2) ?_ ?_ (Nat.div_pos (Nat.le_of_dvd hk0 h2) hg)
    · intro q hq
      exact Nat.div_lt_div_of_lt_of_dvd h2 (shape q hq).1
    · have m1 : ∀ (k : ℤ) l, (toStdForm k l).2.map Prod.fst = l.map Prod.fst := by
        intro k l; simp [toStdForm]
      rw [List.map_append, m1, m1]
      refine count_append_le (partialFactor_nodup ht) (partialFactor_nodup hb) ?_
      rintro ⟨a, b⟩
      obtain ⟨q1, hq1, e1⟩ := List.mem_map.mp a
      obtain ⟨q2, hq2, e2⟩ := List.mem_map.mp b
      have d1 := (partialFactor_prime ht hq1 hp hp101 (by rw [e1])).2
      have d2 := (partialFactor_prime hb hq2 hp hp101 (by rw [e2])).2
      exact Nat.not_coprime_of_dvd_of_dvd hp.one_lt d1 d2 hcop

end Purrs.SimplifyRoot
