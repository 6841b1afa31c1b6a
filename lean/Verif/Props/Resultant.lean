import Verif.Model.Resultant
import Mathlib.RingTheory.Polynomial.Resultant.Basic
import Mathlib.RingTheory.Polynomial.Content
import Mathlib.Analysis.Complex.Polynomial.Basic

/-!
# C16: conversion to a polynomial with integer coefficients; C17: resultants
-/

namespace Purrs.Resultant

open Polynomial

noncomputable section

/-! ## C16 -/

theorem foldl_lcm (p : ℚ[X]) : ∀ (l : List ℕ) (t : ℕ), 0 < t →
    0 < l.foldl (fun t i => Nat.lcm t (p.coeff i).den) t ∧ t ∣ l.foldl (fun t i => Nat.lcm t (p.coeff i).den) t ∧
    ∀ i ∈ l, (p.coeff i).den ∣ l.foldl (fun t i => Nat.lcm t (p.coeff i).den) t := by
  intro l
  induction l with
  | nil => intro t ht; simpa using ht
  | cons a l ih =>
    intro t ht
    obtain ⟨h1, h2, h3⟩ := ih (Nat.lcm t (p.coeff a).den) (Nat.lcm_pos ht (p.coeff a).den_pos)
    refine ⟨h1, (Nat.dvd_lcm_left _ _).trans h2, fun i hi => ?_⟩
    rcases List.mem_cons.mp hi with rfl | hi
    · exact (Nat.dvd_lcm_right _ _).trans h2
    · exact h3 i hi

theorem tLcm_spec (p : ℚ[X]) : 0 < tLcm p ∧ ∀ i, (p.coeff i).den ∣ tLcm p := by
  obtain ⟨h1, -, h3⟩ := foldl_lcm p (List.range (p.natDegree + 1)) (p.coeff p.natDegree).den (Rat.den_pos _)
  refine ⟨h1, fun i => ?_⟩
  rcases Nat.lt_or_ge i (p.natDegree + 1) with h | h
  · exact h3 i (List.mem_range.mpr h)
  · rw [coeff_eq_zero_of_natDegree_lt (by omega)]; simp

/-- A polynomial with integer coefficients, seen with rational ones. -/
def ofZ (P : ℤ[X]) : ℚ[X] := P.map (Int.castRingHom ℚ)

theorem scaled_integer (p : ℚ[X]) : ∃ P : ℤ[X], p * C (tLcm p : ℚ) = ofZ P := by
  have : ∀ i, ((p * C (tLcm p : ℚ)).coeff i).den = 1 := by
    intro i
    obtain ⟨k, hk⟩ := (tLcm_spec p).2 i
    rw [coeff_mul_C, hk, Nat.cast_mul, ← mul_assoc, Rat.mul_den_eq_num]
    have : ((p.coeff i).num : ℚ) * (k : ℚ) = (((p.coeff i).num * k : ℤ) : ℚ) := by push_cast; rfl
    rw [this]; exact Rat.den_intCast _
  have h2 : p * C (tLcm p : ℚ) ∈ lifts (Int.castRingHom ℚ) := by
    rw [lifts_iff_coeff_lifts]
    exact fun i => ⟨((p * C (tLcm p : ℚ)).coeff i).num, by
      simpa using Rat.coe_int_num_of_den_eq_one (this i)⟩
  obtain ⟨P, hP⟩ := (mem_lifts _).mp h2
  exact ⟨P, hP.symm⟩

theorem foldl_gcd (f : ℕ → ℕ) : ∀ (l : List ℕ) (t : ℕ),
    l.foldl (fun t i => Nat.gcd t (f i)) t ∣ t ∧ (∀ i ∈ l, l.foldl (fun t i => Nat.gcd t (f i)) t ∣ f i) ∧
    ∀ d, d ∣ t → (∀ i ∈ l, d ∣ f i) → d ∣ l.foldl (fun t i => Nat.gcd t (f i)) t := by
  intro l
  induction l with
  | nil => intro t; simp
  | cons a l ih =>
    intro t
    obtain ⟨h1, h2, h3⟩ := ih (Nat.gcd t (f a))
    refine ⟨h1.trans (Nat.gcd_dvd_left _ _), fun i hi => ?_, fun d hd hl => ?_⟩
    · rcases List.mem_cons.mp hi with rfl | hi
      · exact h1.trans (Nat.gcd_dvd_right _ _)
      · exact h2 i hi
    · exact h3 d (Nat.dvd_gcd hd (hl a (by simp))) fun i hi => hl i (by simp [hi])

theorem natDegree_ofZ (P : ℤ[X]) : (ofZ P).natDegree = P.natDegree :=
  natDegree_map_eq_of_injective (by intro a b h; simpa using h) P

theorem coeff_ofZ (P : ℤ[X]) (i : ℕ) : (ofZ P).coeff i = (P.coeff i : ℚ) := by simp [ofZ]

/-- The content is the greatest common divisor of the coefficients. -/
theorem content_spec (P : ℤ[X]) : (content (ofZ P) : ℤ) = P.content := by
  obtain ⟨-, h2, h3⟩ := foldl_gcd (fun i => ((ofZ P).coeff i).num.natAbs) (List.range ((ofZ P).natDegree + 1)) 0
  have e : ∀ i, ((ofZ P).coeff i).num.natAbs = (P.coeff i).natAbs := by intro i; rw [coeff_ofZ]; simp
  have d1 : (content (ofZ P) : ℤ) ∣ P.content := by
    rw [dvd_content_iff_C_dvd, C_dvd_iff_dvd_coeff]
    intro i
    rcases Nat.lt_or_ge i (P.natDegree + 1) with h | h
    · have := h2 i (by rw [natDegree_ofZ]; exact List.mem_range.mpr h)
      rw [e] at this
      exact Int.natCast_dvd.mpr this
    · rw [coeff_eq_zero_of_natDegree_lt (by omega)]; simp
  have d2 : P.content ∣ (content (ofZ P) : ℤ) := by
    rw [← Int.natAbs_dvd, Int.natCast_dvd_natCast]
    refine h3 _ (by simp) fun i _ => ?_
    show _ ∣ ((ofZ P).coeff i).num.natAbs
    rw [e]
    exact Int.natAbs_dvd_natAbs.mpr (content_dvd_coeff i)
  have n1 : normalize P.content = P.content := normalize_content
  rw [← n1, ← Int.normalize_coe_nat (content (ofZ P))]
  exact normalize_eq_normalize_iff.mpr ⟨d1, d2⟩

/-- **C16**.  For a polynomial `p ≠ 0` with rational coefficients the polynomial that is returned has integer coefficients
with no common divisor and positive leading coefficient, and with the factor it gives back `p`. -/
theorem C16_conversion (p : ℚ[X]) (hp : p ≠ 0) : ∃ (P : ℤ[X]) (c : ℚ), toIntegerFactor p = some (ofZ P, c) ∧ toInteger p = ofZ P ∧
    P.IsPrimitive ∧ 0 < P.leadingCoeff ∧ p = ofZ P * C c := by
  obtain ⟨Q, hQ⟩ := scaled_integer p
  have ht : (tLcm p : ℚ) ≠ 0 := by exact_mod_cast (tLcm_spec p).1.ne'
  have hQ0 : ofZ Q ≠ 0 := by
    rw [← hQ]
    exact mul_ne_zero hp (by simpa using ht)
  have hQz : Q ≠ 0 := by rintro rfl; simp [ofZ] at hQ0
  have hc0 : Q.content ≠ 0 := content_eq_zero_iff.not.mpr hQz
  -- the sign
  obtain ⟨u, hu, hu2⟩ : ∃ u : ℤ, (unit (ofZ Q) = (u : ℚ)) ∧ (u = 1 ∧ 0 < Q.leadingCoeff ∨ u = -1 ∧ Q.leadingCoeff < 0) := by
    have hl : (ofZ Q).leadingCoeff = (Q.leadingCoeff : ℚ) := by rw [leadingCoeff, natDegree_ofZ, coeff_ofZ]; rfl
    unfold unit
    rw [hl]
    split_ifs with h
    · exact ⟨-1, by simp, .inr ⟨rfl, by exact_mod_cast h⟩⟩
    · refine ⟨1, by simp, .inl ⟨rfl, ?_⟩⟩
      have h1 : 0 ≤ Q.leadingCoeff := by
        have : ¬ Q.leadingCoeff < 0 := by exact_mod_cast h
        omega
      have := leadingCoeff_ne_zero.mpr hQz
      omega
  have huu : u * u = 1 := by rcases hu2 with ⟨rfl, -⟩ | ⟨rfl, -⟩ <;> rfl
  have huq : (u : ℚ) * u = 1 := by exact_mod_cast huu
  have hu0 : (u : ℚ) ≠ 0 := by intro h; rw [h] at huq; simp at huq
  have hcq : (Q.content : ℚ) ≠ 0 := by exact_mod_cast hc0
  have hprim : primpart (ofZ Q) = ofZ (C u * Q.primPart) := by
    have hQc : Q = C Q.content * Q.primPart := eq_C_content_mul_primPart Q
    have key : ofZ Q * C ((content (ofZ Q) : ℚ) * unit (ofZ Q))⁻¹ = ofZ (C u * Q.primPart) := by
      have h1 : (content (ofZ Q) : ℚ) = (Q.content : ℚ) := by exact_mod_cast congrArg (fun z : ℤ => (z : ℚ)) (content_spec Q)
      rw [h1, hu]
      ext i
      rw [coeff_mul_C, coeff_ofZ, coeff_ofZ, coeff_C_mul]
      have : Q.coeff i = Q.content * Q.primPart.coeff i := by
        conv_lhs => rw [hQc, coeff_C_mul]
      rw [this]
      push_cast
      field_simp
      linear_combination (-(Q.primPart.coeff i : ℚ)) * huq
    unfold primpart
    rw [if_neg hQ0]
    split_ifs with h
    · rw [natDegree_ofZ] at h
      have hq : Q = C (Q.coeff 0) := eq_C_of_natDegree_eq_zero h
      have hpp : Q.primPart.natDegree = 0 := by rw [natDegree_primPart]; exact h
      have hc : Q.primPart = C (Q.primPart.coeff 0) := eq_C_of_natDegree_eq_zero hpp
      have hun : IsUnit (Q.primPart.coeff 0) := by
        have := isPrimitive_primPart Q
        exact (isPrimitive_iff_isUnit_of_C_dvd.mp this) _ (by rw [← hc])
      have hl : Q.leadingCoeff = Q.content * Q.primPart.coeff 0 := by
        conv_lhs => rw [hQc, leadingCoeff_mul, leadingCoeff_C]
        rw [leadingCoeff, hpp]
      have hcn : 0 ≤ Q.content := by
        have := content_spec Q
        omega
      have hone : u * Q.primPart.coeff 0 = 1 := by
        rcases Int.isUnit_iff.mp hun with h1 | h1 <;> rcases hu2 with ⟨rfl, h2⟩ | ⟨rfl, h2⟩ <;> rw [h1] at hl ⊢ <;> simp <;>
          rw [hl] at h2 <;> nlinarith
      rw [hc, ← C_mul, hone]
      simp [ofZ]
    · exact key
  have hti : toInteger p = ofZ (C u * Q.primPart) := by rw [toInteger, hQ, hprim]
  have hpos : 0 < (C u * Q.primPart).leadingCoeff := by
    rw [leadingCoeff_mul, leadingCoeff_C]
    have hl : Q.leadingCoeff = Q.content * Q.primPart.leadingCoeff := by
      conv_lhs => rw [eq_C_content_mul_primPart Q, leadingCoeff_mul, leadingCoeff_C]
    have hcn : 0 < Q.content := by
      have := content_spec Q
      omega
    rcases hu2 with ⟨rfl, h2⟩ | ⟨rfl, h2⟩ <;> rw [hl] at h2 <;> nlinarith
  have hlead : (toInteger p).leadingCoeff = ((C u * Q.primPart).leadingCoeff : ℚ) := by
    rw [hti, leadingCoeff, natDegree_ofZ, coeff_ofZ]; rfl
  have hne : (toInteger p).leadingCoeff ≠ 0 := by rw [hlead]; exact_mod_cast hpos.ne'
  refine ⟨C u * Q.primPart, p.leadingCoeff * (toInteger p).leadingCoeff ^ (-1 : ℤ), ?_, hti, ?_, hpos, ?_⟩
  · rw [toIntegerFactor, if_neg hne, hti]
  · rw [isPrimitive_iff_isUnit_of_C_dvd]
    intro r hr
    refine (isPrimitive_iff_isUnit_of_C_dvd.mp (isPrimitive_primPart Q)) r ?_
    have := hr.mul_left (C u)
    rwa [← mul_assoc, ← C_mul, huu, C_1, one_mul] at this
  · -- p is a multiple of the result
    have hmul : p = ofZ (C u * Q.primPart) * C ((Q.content : ℚ) * u * (tLcm p : ℚ)⁻¹) := by
      ext i
      have h1 : p.coeff i * tLcm p = (Q.coeff i : ℚ) := by rw [← coeff_ofZ, ← hQ, coeff_mul_C]
      have h2 : Q.coeff i = Q.content * Q.primPart.coeff i := by
        conv_lhs => rw [eq_C_content_mul_primPart Q, coeff_C_mul]
      rw [coeff_mul_C, coeff_ofZ, coeff_C_mul]
      rw [h2] at h1
      push_cast at h1 ⊢
      field_simp
      linear_combination h1 - (Q.content : ℚ) * Q.primPart.coeff i * huq
    have hlc : p.leadingCoeff = (toInteger p).leadingCoeff * ((Q.content : ℚ) * u * (tLcm p : ℚ)⁻¹) := by
      conv_lhs => rw [hmul, leadingCoeff_mul, leadingCoeff_C]
      rw [hti]
    have hc : p.leadingCoeff * (toInteger p).leadingCoeff ^ (-1 : ℤ) = (Q.content : ℚ) * u * (tLcm p : ℚ)⁻¹ := by
      rw [hlc, zpow_neg_one]; field_simp
    rw [hc]; exact hmul

/-- The hypothesis holds for `x/2 + 1/3`. -/
example : (C (1 / 2) * X + C (1 / 3) : ℚ[X]) ≠ 0 := by
  intro h
  have := congrArg (fun p => p.coeff 1) h
  simp at this

/-- For the polynomial `0` the factor is an exception, and the polynomial is `0`. -/
theorem C16_zero : toIntegerFactor 0 = none ∧ toInteger 0 = 0 := by
  simp [toIntegerFactor, toInteger, primpart]

/-! ## C17 -/

/-- The coefficients of a row. -/
theorem sylvesterRow_length (p : ℚ[X]) {deg size k : ℕ} (h : k + deg + 1 ≤ size) : (sylvesterRow p deg size k).length = size := by
  simp [sylvesterRow]; omega

theorem sylvesterRow_getD (p : ℚ[X]) {deg size k : ℕ} (j : ℕ) :
    (sylvesterRow p deg size k).getD j 0 = if k ≤ j ∧ j ≤ k + deg then p.coeff (k + deg - j) else 0 := by
  unfold sylvesterRow
  rw [List.getD_eq_getElem?_getD]
  rcases Nat.lt_or_ge j k with h1 | h1
  · rw [List.append_assoc, List.getElem?_append_left (by simpa using h1), List.getElem?_replicate_of_lt h1, if_neg (by omega)]
    rfl
  · rcases Nat.lt_or_ge j (k + deg + 1) with h2 | h2
    · rw [List.getElem?_append_left (by simp; omega), List.getElem?_append_right (by simpa using h1), if_pos (by omega)]
      have : j - (List.replicate k (0 : ℚ)).length < deg + 1 := by simp; omega
      rw [List.getElem?_map, List.getElem?_range this]
      simp only [List.length_replicate, Option.map_some, Option.getD_some]
      congr 1; omega
    · rw [List.getElem?_append_right (by simp; omega), if_neg (by omega), List.getElem?_replicate]
      split_ifs <;> rfl

/-- Element of a list made of rows of the same length. -/
theorem flatMap_getD (f : ℕ → List ℚ) (size : ℕ) : ∀ (n : ℕ), (∀ i < n, (f i).length = size) →
    ((List.range n).flatMap f).length = n * size ∧
    ∀ i < n, ∀ j < size, ((List.range n).flatMap f).getD (i * size + j) 0 = (f i).getD j 0 := by
  intro n
  induction n with
  | zero => intro _; simp
  | succ n ih =>
    intro hf
    obtain ⟨h1, h2⟩ := ih fun i hi => hf i (by omega)
    have e : (List.range (n + 1)).flatMap f = (List.range n).flatMap f ++ f n := by
      rw [List.range_succ, List.flatMap_append]; simp
    rw [e]
    refine ⟨by rw [List.length_append, h1, hf n (by omega)]; ring, fun i hi j hj => ?_⟩
    rw [List.getD_eq_getElem?_getD, List.getD_eq_getElem?_getD]
    rcases Nat.lt_or_ge i n with h | h
    · have hlt : i * size + j < ((List.range n).flatMap f).length := by
        rw [h1]
        calc i * size + j < i * size + size := by omega
          _ = (i + 1) * size := by ring
          _ ≤ n * size := Nat.mul_le_mul_right _ h
      rw [List.getElem?_append_left hlt, ← List.getD_eq_getElem?_getD, h2 i h j hj, List.getD_eq_getElem?_getD]
    · obtain rfl : i = n := by omega
      rw [List.getElem?_append_right (by rw [h1]; omega), h1]
      congr 2; omega

theorem elements_getD (p q : ℚ[X]) {i j : ℕ} (hi : i < p.natDegree + q.natDegree) (hj : j < p.natDegree + q.natDegree) :
    (sylvesterElements p q).getD (i * (p.natDegree + q.natDegree) + j) 0
      = if i < q.natDegree then (if i ≤ j ∧ j ≤ i + p.natDegree then p.coeff (i + p.natDegree - j) else 0)
        else (if i - q.natDegree ≤ j ∧ j ≤ i then q.coeff (i - j) else 0) := by
  obtain ⟨a1, a2⟩ := flatMap_getD (fun i => sylvesterRow p p.natDegree (p.natDegree + q.natDegree) i) (p.natDegree + q.natDegree)
    q.natDegree fun i hi => sylvesterRow_length p (by omega)
  obtain ⟨b1, b2⟩ := flatMap_getD (fun i => sylvesterRow q q.natDegree (p.natDegree + q.natDegree) i) (p.natDegree + q.natDegree)
    p.natDegree fun i hi => sylvesterRow_length q (by omega)
  unfold sylvesterElements
  rw [List.getD_eq_getElem?_getD]
  split_ifs with h h' h'
  · have hlt : i * (p.natDegree + q.natDegree) + j < ((List.range q.natDegree).flatMap
        fun i => sylvesterRow p p.natDegree (p.natDegree + q.natDegree) i).length := by
      rw [a1]; nlinarith
    rw [List.getElem?_append_left hlt, ← List.getD_eq_getElem?_getD, a2 i h j hj, sylvesterRow_getD p, if_pos h']
  · have hlt : i * (p.natDegree + q.natDegree) + j < ((List.range q.natDegree).flatMap
        fun i => sylvesterRow p p.natDegree (p.natDegree + q.natDegree) i).length := by
      rw [a1]; nlinarith
    rw [List.getElem?_append_left hlt, ← List.getD_eq_getElem?_getD, a2 i h j hj, sylvesterRow_getD p, if_neg h']
  all_goals
    obtain ⟨k, rfl⟩ : ∃ k, i = q.natDegree + k := ⟨i - q.natDegree, by omega⟩
    have e : (q.natDegree + k) * (p.natDegree + q.natDegree) + j
        = q.natDegree * (p.natDegree + q.natDegree) + (k * (p.natDegree + q.natDegree) + j) := by ring
    rw [List.getElem?_append_right (by rw [a1, e]; omega), a1, e, Nat.add_sub_cancel_left, ← List.getD_eq_getElem?_getD,
      b2 k (by omega) j hj, sylvesterRow_getD q]
  · rw [if_pos (by omega), Nat.add_comm k]
  · rw [if_neg (by omega)]

/-- **C17**.  The determinant of the Sylvester matrix that is set up is the resultant. -/
theorem C17_sylvester (p q : ℚ[X]) : sylvesterResultant p q = Polynomial.resultant p q := by
  unfold sylvesterResultant Polynomial.resultant
  rw [← Matrix.det_transpose (sylvester p q p.natDegree q.natDegree), ← Matrix.det_submatrix_equiv_self Fin.revPerm]
  congr 1
  ext i j
  rw [elements_getD p q i.2 j.2]
  simp only [Matrix.submatrix_apply, Matrix.transpose_apply, Fin.revPerm_apply]
  have hi := i.2
  have hj := j.2
  by_cases h : (i : ℕ) < q.natDegree
  · have e : i.rev = Fin.natAdd p.natDegree ⟨q.natDegree - 1 - i, by omega⟩ := by
      ext; simp [Fin.val_rev]; omega
    rw [if_pos h, e, sylvester]
    simp only [Matrix.of_apply, Fin.addCases_right, Set.mem_Icc, Fin.val_rev]
    by_cases h' : (i : ℕ) ≤ j ∧ (j : ℕ) ≤ i + p.natDegree
    · rw [if_pos h', if_pos (by omega)]
      congr 1; omega
    · rw [if_neg h', if_neg (by omega)]
  · have e : i.rev = Fin.castAdd q.natDegree ⟨p.natDegree + q.natDegree - 1 - i, by omega⟩ := by
      ext; simp [Fin.val_rev]; omega
    rw [if_neg h, e, sylvester]
    simp only [Matrix.of_apply, Fin.addCases_left, Set.mem_Icc, Fin.val_rev]
    by_cases h' : (i : ℕ) - q.natDegree ≤ j ∧ (j : ℕ) ≤ i
    · rw [if_pos h', if_pos (by omega)]
      congr 1; omega
    · rw [if_neg h', if_neg (by omega)]

/-! ### Euclid's algorithm -/

theorem usub_eq {a b c : ℕ} (h : b ≤ a) (hlt : a - b + c < 2 ^ 32) : usub a b c = a - b + c := by
  unfold usub
  rw [show a + 2 ^ 32 - b + c = a - b + c + 2 ^ 32 by omega, Nat.add_mod_right, Nat.mod_eq_of_lt hlt]

/-- One iteration: if the factor by which the pseudo-remainder is divided is the right one. -/
theorem step_resultant {f g : ℚ[X]} (hf : 0 < f.natDegree) (hdf : f.natDegree + 1 < 2 ^ 32) (hdg : g.natDegree + 1 < 2 ^ 32)
    (hok : f.natDegree ≤ g.natDegree + 1 ∨ f.leadingCoeff = 1) :
    Polynomial.resultant f g = stepFactor f g * Polynomial.resultant (remainder f g) f := by
  have hl : f.leadingCoeff ≠ 0 := by
    rw [leadingCoeff_ne_zero]; rintro rfl; simp at hf
  -- the remainder is that of the division
  have hr : remainder f g = if g.natDegree < f.natDegree then g else g % f := by
    unfold remainder prem
    split_ifs with h
    · have : f.leadingCoeff ^ usub g.natDegree f.natDegree 1 = 1 := by
        rcases hok with h1 | h1
        · have : usub g.natDegree f.natDegree 1 = 0 := by
            unfold usub
            rw [show g.natDegree + 2 ^ 32 - f.natDegree + 1 = 2 ^ 32 by omega]
            simp
          rw [this, pow_zero]
        · rw [h1, one_pow]
      rw [this]; simp
    · rw [usub_eq (by omega) (by omega), mul_right_comm, ← C_mul, mul_inv_cancel₀ (pow_ne_zero _ hl)]; simp
  have hdeg : (remainder f g).natDegree ≤ g.natDegree := by
    have := remainder_lt (g := g) hf
    rw [hr] at this ⊢
    split_ifs at this ⊢ <;> omega
  have h1 : Polynomial.resultant f g = Polynomial.resultant f (remainder f g) f.natDegree g.natDegree := by
    rw [hr]
    by_cases h : g.natDegree < f.natDegree
    · rw [if_pos h]
    · rw [if_neg h]
      have hg : g = g % f + f * (g / f) := (EuclideanDomain.mod_add_div g f).symm
      have hd : (g / f).natDegree + f.natDegree ≤ g.natDegree := by
        have hf0 : f ≠ 0 := leadingCoeff_ne_zero.mp hl
        have hg0 : g ≠ 0 := by rintro rfl; simp at h; omega
        have h3 := degree_add_div hf0 (show f.degree ≤ g.degree by
          rw [degree_eq_natDegree hf0, degree_eq_natDegree hg0]
          exact_mod_cast Nat.le_of_not_lt h)
        have hq0 : g / f ≠ 0 := by
          intro h4
          rw [h4, degree_zero, WithBot.add_bot, degree_eq_natDegree hg0] at h3
          simp at h3
        rw [degree_eq_natDegree hf0, degree_eq_natDegree hg0, degree_eq_natDegree hq0] at h3
        have h5 : f.natDegree + (g / f).natDegree = g.natDegree := by exact_mod_cast h3
        omega
      conv_lhs => rw [show Polynomial.resultant f g = Polynomial.resultant f (g % f + f * (g / f)) f.natDegree g.natDegree by rw [← hg]]
      exact resultant_add_mul_right _ _ _ _ _ hd le_rfl
  have h2 : Polynomial.resultant f (remainder f g) f.natDegree g.natDegree
      = f.leadingCoeff ^ (g.natDegree - (remainder f g).natDegree) * Polynomial.resultant f (remainder f g) := by
    have := resultant_add_right_deg f (remainder f g) f.natDegree (remainder f g).natDegree
      (g.natDegree - (remainder f g).natDegree) le_rfl
    rwa [Nat.add_sub_cancel' hdeg] at this
  rw [h1, h2, resultant_comm, stepFactor, usub_eq hdeg (by omega), mul_assoc]
  congr 2
  rw [Nat.mod_mod_of_dvd _ (by norm_num)]
  rcases Nat.even_or_odd (f.natDegree * (remainder f g).natDegree) with h | h
  · rw [h.neg_one_pow, if_neg (by simp [Nat.even_iff.mp h])]
  · rw [h.neg_one_pow, if_pos (by simp [Nat.odd_iff.mp h])]

theorem euclid_eq (f g : ℚ[X]) (res : ℚ) (hdf : f.natDegree + 1 < 2 ^ 32) (hdg : g.natDegree + 1 < 2 ^ 32)
    (hok : f.natDegree ≤ g.natDegree + 1 ∨ f.leadingCoeff = 1) : euclid f g res = res * Polynomial.resultant f g := by
  generalize hn : f.natDegree = n
  rw [← hn]
  induction n using Nat.strong_induction_on generalizing f g res with
  | _ n ih =>
    rw [euclid]
    split_ifs with h
    · have hlt := remainder_lt (g := g) h
      rw [ih _ (by omega) (remainder f g) f _ (by omega) hdf (.inl (by omega)) rfl, step_resultant h hdf hdg hok]
      ring
    · have h0 : f.natDegree = 0 := by omega
      have : Polynomial.resultant f g = f.coeff 0 ^ g.natDegree := by
        conv_lhs => rw [show Polynomial.resultant f g = Polynomial.resultant f g 0 g.natDegree by rw [h0]]
        rw [resultant_zero_left_deg]
      rw [this]

/-- **C17**.  When the degree of the first polynomial is at most one more than that of the second one (or its leading
coefficient is 1), the result of the algorithm is the resultant, the determinant of the Sylvester matrix. -/
theorem C99_resultant_partial (p q : ℚ[X]) (hp : p.natDegree + 1 < 2 ^ 32) (hq : q.natDegree + 1 < 2 ^ 32)
    (hok : p.natDegree ≤ q.natDegree + 1 ∨ q.natDegree = 0 ∨ p.leadingCoeff = 1) : resultant p q = sylvesterResultant p q := by
  rw [C17_sylvester, resultant]
  split_ifs with h
  · rcases h with h | h
    · rw [show Polynomial.resultant p q = Polynomial.resultant p q 0 q.natDegree by rw [h], resultant_zero_left_deg, h, pow_zero,
        mul_one, leadingCoeff, h]
    · rw [show Polynomial.resultant p q = Polynomial.resultant p q p.natDegree 0 by rw [h], h, pow_zero, one_mul, leadingCoeff, h,
        resultant_comm, resultant_zero_left_deg]
      simp
  · rw [euclid_eq p q 1 hp hq (by tauto), one_mul]

/-- **C17**.  Under the same hypothesis the result is zero exactly if the polynomials, not both zero, have a common complex
root. -/
theorem C99_common_root_partial (p q : ℚ[X]) (hp : p.natDegree + 1 < 2 ^ 32) (hq : q.natDegree + 1 < 2 ^ 32)
    (hok : p.natDegree ≤ q.natDegree + 1 ∨ q.natDegree = 0 ∨ p.leadingCoeff = 1) (h0 : p ≠ 0 ∨ q ≠ 0) :
    resultant p q = 0 ↔ ∃ z : ℂ, aeval z p = 0 ∧ aeval z q = 0 := by
  rw [C99_resultant_partial p q hp hq hok, C17_sylvester, resultant_eq_zero_iff]
  constructor
  · rintro ⟨-, h⟩
    by_contra hz
    push Not at hz
    apply h
    exact (Polynomial.isCoprime_iff_aeval_ne_zero_of_isAlgClosed _ ℂ p q).mpr fun z => by
      by_contra h'
      push Not at h'
      exact hz z h'.1 h'.2
  · rintro ⟨z, h1, h2⟩
    refine ⟨h0, fun ⟨a, b, hab⟩ => ?_⟩
    have := congrArg (aeval z) hab
    simp [h1, h2] at this

/-- The hypotheses of the two theorems, with polynomials with a common root. -/
example : (X ^ 2 - 1 : ℚ[X]).natDegree ≤ (X - 1 : ℚ[X]).natDegree + 1 ∧ resultant (X ^ 2 - 1) (X - 1) = 0 := by
  have h1 : (X ^ 2 - 1 : ℚ[X]).natDegree = 2 := by compute_degree!
  have h2 : (X - 1 : ℚ[X]).natDegree = 1 := by compute_degree!
  refine ⟨by omega, ?_⟩
  rw [C99_common_root_partial _ _ (by omega) (by omega) (by omega) (.inr (by intro h; rw [h] at h2; simp at h2))]
  exact ⟨1, by simp, by simp⟩

/-- **C17 is false of the code** when the degree of the second polynomial is smaller by more than one: the exponent
`deg(g) - deg(f) + 1` is a difference of unsigned integers.  For `1 - x^3` and `x + 1` the result has the wrong sign. -/
theorem C99_resultant_refuted : ∃ p q : ℚ[X], p.natDegree = 3 ∧ q.natDegree = 1 ∧ resultant p q ≠ sylvesterResultant p q ∧
    resultant p q = -sylvesterResultant p q := by
  have d1 : (1 - X ^ 3 : ℚ[X]).natDegree = 3 := by compute_degree!
  have d2 : (X + 1 : ℚ[X]).natDegree = 1 := by compute_degree!
  have lc : (1 - X ^ 3 : ℚ[X]).leadingCoeff = -1 := by
    rw [leadingCoeff, d1]; simp [coeff_one]
  have hr : remainder (1 - X ^ 3) (X + 1) = C (-1) * (X + 1) := by
    have hu : usub 1 3 1 = 2 ^ 32 - 1 := by norm_num [usub]
    unfold remainder prem
    rw [d1, d2, if_pos (by norm_num), hu, lc, Odd.neg_one_pow ⟨2 ^ 31 - 1, by norm_num⟩, mul_comm]
    norm_num
  have hrd : (remainder (1 - X ^ 3) (X + 1)).natDegree = 1 := by
    rw [hr, natDegree_C_mul (by norm_num), d2]
  have hs : stepFactor (1 - X ^ 3) (X + 1) = -1 := by
    unfold stepFactor
    rw [hrd, d1, d2, lc]
    norm_num [usub]
  have key : resultant (1 - X ^ 3) (X + 1) = -Polynomial.resultant (1 - X ^ 3 : ℚ[X]) (X + 1) := by
    unfold resultant
    rw [if_neg (by rw [d1, d2]; norm_num), euclid, dif_pos (by omega), hs, euclid_eq _ _ _ (by omega) (by omega) (.inl (by omega))]
    have e1 : Polynomial.resultant (remainder (1 - X ^ 3) (X + 1)) (1 - X ^ 3)
        = Polynomial.resultant (1 - X ^ 3 : ℚ[X]) (X + 1) := by
      have e2 : Polynomial.resultant (remainder (1 - X ^ 3) (X + 1)) (1 - X ^ 3)
          = Polynomial.resultant (C (-1) * (X + 1) : ℚ[X]) (1 - X ^ 3) 1 3 := by rw [hrd, d1, hr]
      rw [e2, resultant_C_mul_left, resultant_comm, d1, d2]
      norm_num
    rw [e1]; ring
  have hne : Polynomial.resultant (1 - X ^ 3 : ℚ[X]) (X + 1) ≠ 0 := by
    refine resultant_ne_zero _ _ ?_
    refine ⟨C (1 / 2), C (1 / 2) * (X ^ 2 - X + 1), ?_⟩
    have : (C (1 / 2) * (1 - X ^ 3) + C (1 / 2) * (X ^ 2 - X + 1) * (X + 1) : ℚ[X]) = C (1 / 2) * 2 := by ring
    rw [this, show (2 : ℚ[X]) = C 2 from (map_ofNat (C : ℚ →+* ℚ[X]) 2).symm, ← C_mul]
    norm_num
  refine ⟨1 - X ^ 3, X + 1, d1, d2, ?_, ?_⟩
  · rw [C17_sylvester, key]
    intro h
    apply hne
    linarith
  · rw [C17_sylvester, key]

end

end Purrs.Resultant
