import Verif.Props.AlgEq
import Verif.Props.AlgEqNested
import Verif.Props.AlgEqBinomial
import Mathlib.RingTheory.Polynomial.RationalRoot
import Mathlib.RingTheory.Localization.Rat
import Mathlib.RingTheory.Polynomial.GaussLemma
import Mathlib.Algebra.Squarefree.Basic

/-!
# C06: no rational root is missed; C62: the root finder returns exactly the roots
-/

namespace Purrs.AlgEq

open Polynomial

/-- The polynomial with the given integer coefficients, as the code sees it. -/
noncomputable abbrev ofInt (P : ℤ[X]) : ℚ[X] := P.map (Int.castRingHom ℚ)

theorem mem_candidates {lc tc : ℤ} (hl : lc ≠ 0) (ht : tc ≠ 0) (hl' : |lc| < 121) (ht' : |tc| < 121)
    {r : ℚ} (hn : r.num ∣ tc) (hd : (r.den : ℤ) ∣ lc) : r ∈ candidates lc tc := by
  have hr0 : r.num ≠ 0 := fun e => ht (by rw [e] at hn; exact zero_dvd_iff.mp hn)
  obtain ⟨dl, hdl⟩ := Option.isSome_iff_exists.mp
    ((C05_findDivisors_answers lc.natAbs).mpr (by have := Int.abs_eq_natAbs lc; omega))
  obtain ⟨dt, hdt⟩ := Option.isSome_iff_exists.mp
    ((C05_findDivisors_answers tc.natAbs).mpr (by have := Int.abs_eq_natAbs tc; omega))
  have h1 : r.den ∈ dl := (C05_findDivisors_exact _ (by omega) dl hdl _).mpr
    (by have := Int.natAbs_dvd_natAbs.mpr hd; simpa using this)
  have h2 : r.num.natAbs ∈ dt := (C05_findDivisors_exact _ (by omega) dt hdt _).mpr
    (Int.natAbs_dvd_natAbs.mpr hn)
  unfold candidates
  simp only [Rat.num_intCast, hdl, hdt, Option.getD_some, List.mem_flatMap]
  refine ⟨r.den, h1, r.num.natAbs, h2, ?_⟩
  have hr := Rat.num_div_den r
  rcases Int.natAbs_eq r.num with e | e
  · have : ((r.num.natAbs : ℕ) : ℚ) = (r.num : ℚ) := by
      conv_rhs => rw [e]
      simp
    rw [this, hr]; exact List.mem_cons_self
  · have : ((r.num.natAbs : ℕ) : ℚ) = -(r.num : ℚ) := by
      conv_rhs => rw [e]
      simp
    rw [this, neg_div, neg_neg, hr]; exact List.mem_cons_of_mem _ List.mem_cons_self

/-- Every rational root of an integer polynomial with non-zero constant term is among the candidates
tried, when the divisor enumeration accepts its leading and constant coefficients. -/
theorem C06_candidates {P : ℤ[X]} (h0 : P.coeff 0 ≠ 0) (hl : |P.leadingCoeff| < 121)
    (ht : |P.coeff 0| < 121) {r : ℚ} (hr : (ofInt P).eval r = 0) :
    r ∈ candidates (P.leadingCoeff : ℤ) (P.coeff 0 : ℤ) := by
  have ha : aeval r P = 0 := by
    rw [aeval_def, ← eval_map]; exact hr
  have hn := num_dvd_of_is_root ha
  have hd := den_dvd_of_is_root ha
  rw [(Rat.isFractionRingNum r).dvd_iff_dvd_left] at hn
  rw [← Int.natAbs_dvd, Rat.isFractionRingDen] at hd
  have hP : P ≠ 0 := fun e => h0 (by rw [e]; simp)
  exact mem_candidates (leadingCoeff_ne_zero.mpr hP) h0 hl ht hn hd

/-- What the fold over a list of candidates does. -/
theorem ratFold_spec (L : List ℚ) : ∀ (q : ℚ[X]) (d : ℕ) (rs : List ℚ),
    q ≠ 0 → Squarefree q → d = q.natDegree →
    ∃ new : List ℚ, (L.foldl ratStep (q, d, rs)).2.2 = rs ++ new ∧
      q = (L.foldl ratStep (q, d, rs)).1 * (new.map fun r => X - C r).prod ∧
      (L.foldl ratStep (q, d, rs)).2.1 = (L.foldl ratStep (q, d, rs)).1.natDegree ∧
      (∀ r ∈ L, (L.foldl ratStep (q, d, rs)).1.eval r ≠ 0) := by
  induction L with
  | nil => intro q d rs h0 hs hd; exact ⟨[], by simp, by simp, hd, by simp⟩
  | cons a L ih =>
    intro q d rs h0 hs hd
    simp only [List.foldl_cons]
    by_cases ha : q.eval a = 0
    · have hst : ratStep (q, d, rs) a = (q /ₘ (X - C a), d - 1, rs ++ [a]) := by
        unfold ratStep; rw [if_pos ha]
      rw [hst]
      have hq : (X - C a) * (q /ₘ (X - C a)) = q := mul_divByMonic_eq_iff_isRoot.mpr ha
      have hq0 : q /ₘ (X - C a) ≠ 0 := by
        intro e; rw [e, mul_zero] at hq; exact h0 hq.symm
      have hsq : Squarefree (q /ₘ (X - C a)) := hs.squarefree_of_dvd ⟨X - C a, by rw [mul_comm, hq]⟩
      have hdeg : d - 1 = (q /ₘ (X - C a)).natDegree := by
        rw [natDegree_divByMonic _ (monic_X_sub_C a), natDegree_X_sub_C, hd]
      have hne : (q /ₘ (X - C a)).eval a ≠ 0 := by
        intro e
        have h2 : X - C a ∣ q /ₘ (X - C a) := dvd_iff_isRoot.mpr e
        have : (X - C a) * (X - C a) ∣ q := by
          obtain ⟨c, hc⟩ := h2
          exact ⟨c, by rw [← hq, hc]; ring⟩
        exact not_isUnit_X_sub_C a (hs _ this)
      obtain ⟨new, h1, h2, h3, h4⟩ := ih (q /ₘ (X - C a)) (d - 1) (rs ++ [a]) hq0 hsq hdeg
      refine ⟨a :: new, by rw [h1]; simp, ?_, h3, ?_⟩
      · conv_lhs => rw [← hq, h2]
        rw [List.map_cons, List.prod_cons]; ring
      · intro r hr
        rcases List.mem_cons.mp hr with e | e
        · subst e
          intro e2
          apply hne
          rw [h2, eval_mul, e2, zero_mul]
        · exact h4 r e
    · have hst : ratStep (q, d, rs) a = (q, d, rs) := by unfold ratStep; rw [if_neg ha]
      rw [hst]
      obtain ⟨new, h1, h2, h3, h4⟩ := ih q d rs h0 hs hd
      refine ⟨new, h1, h2, h3, ?_⟩
      intro r hr
      rcases List.mem_cons.mp hr with e | e
      · subst e
        intro e2
        apply ha
        rw [h2, eval_mul, e2, zero_mul]
      · exact h4 r e

/-- The search finds all rational roots of a square-free integer polynomial, each once: the
polynomial is the product of what is left, which has no rational root, and of the linear factors of
the values found. -/
theorem C06_search {P : ℤ[X]} (h0 : P.coeff 0 ≠ 0) (hl : |P.leadingCoeff| < 121)
    (ht : |P.coeff 0| < 121) (hs : Squarefree (ofInt P)) :
    let s := ratSearch (ofInt P)
    ofInt P = s.1 * (s.2.2.map fun r => X - C r).prod ∧
    (∀ r : ℚ, s.1.eval r ≠ 0) ∧ s.2.1 = s.1.natDegree ∧
    s.2.2.Nodup ∧ (∀ r : ℚ, (ofInt P).eval r = 0 ↔ r ∈ s.2.2) := by
  intro s
  have hP : P ≠ 0 := fun e => h0 (by rw [e]; simp)
  have hinj : Function.Injective (Int.castRingHom ℚ) := Int.cast_injective
  have hp0 : ofInt P ≠ 0 := (Polynomial.map_ne_zero_iff hinj).mpr hP
  obtain ⟨new, h1, h2, h3, h4⟩ := ratFold_spec
    (candidates (ofInt P).leadingCoeff ((ofInt P).coeff 0)) (ofInt P) (ofInt P).natDegree [] hp0 hs rfl
  have hs1 : s.2.2 = new := by rw [← List.nil_append new, ← h1]; rfl
  have hlc : (ofInt P).leadingCoeff = ((P.leadingCoeff : ℤ) : ℚ) := by
    rw [leadingCoeff_map_of_injective hinj]; simp
  have htc : (ofInt P).coeff 0 = ((P.coeff 0 : ℤ) : ℚ) := by simp [coeff_map]
  have hno : ∀ r : ℚ, s.1.eval r ≠ 0 := by
    intro r e
    have hr : (ofInt P).eval r = 0 := by
      rw [h2, eval_mul]
      exact mul_eq_zero_of_left e _
    have := C06_candidates h0 hl ht hr
    rw [← hlc, ← htc] at this
    exact h4 r this e
  refine ⟨by rw [hs1]; exact h2, hno, h3, ?_, ?_⟩
  · rw [hs1]
    by_contra hd
    rw [List.nodup_iff_sublist] at hd
    push Not at hd
    obtain ⟨a, ha⟩ := hd
    have hdvd : (X - C a) * (X - C a) ∣ ofInt P := by
      rw [h2]
      apply Dvd.dvd.mul_left
      have := (ha.map (fun r => (X - C r : ℚ[X]))).prod_dvd_prod
      simpa using this
    exact not_isUnit_X_sub_C a (hs _ hdvd)
  · intro r
    rw [hs1]
    constructor
    · intro e
      rw [h2, eval_mul] at e
      rcases mul_eq_zero.mp e with e | e
      · exact absurd e (hno r)
      · rw [eval_list_prod, List.prod_eq_zero_iff] at e
        simp only [List.map_map, List.mem_map, Function.comp] at e
        obtain ⟨b, hb, hb2⟩ := e
        simp at hb2
        rw [sub_eq_zero.mp hb2]; exact hb
    · intro e
      rw [h2, eval_mul]
      apply mul_eq_zero_of_right
      rw [eval_list_prod, List.prod_eq_zero_iff]
      simp only [List.map_map, List.mem_map, Function.comp]
      exact ⟨r, e, by simp⟩

end Purrs.AlgEq
