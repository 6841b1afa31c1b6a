import Verif.Props.ExactNew
import Mathlib.Algebra.Polynomial.Roots
import Mathlib.LinearAlgebra.FiniteDimensional.Basic
import Mathlib.LinearAlgebra.FiniteDimensional.Lemmas
import Mathlib.Tactic.FieldSimp

set_option linter.unusedSectionVars false

/-!
# C63: the linear systems of the new method always have a solution

`compute_special_solution` and the determination of the constants from the initial conditions set up
linear systems; with the right roots and multiplicities they are always solvable.
-/

namespace Purrs.Exact

open Polynomial Finset

variable {K : Type} [Field K]

/-- Multiplication by `b` and shift, on polynomials. -/
noncomputable def shiftPoly (b : K) : K[X] →ₗ[K] K[X] := b • taylor 1

theorem shift_polyExp {b : K} (hb : b ≠ 0) (q : K[X]) :
    shiftE (polyExp q b) = polyExp (shiftPoly b q) b := by
  funext n
  show polyExp q b (n + 1) = _
  unfold polyExp shiftPoly
  rw [LinearMap.smul_apply, eval_smul, taylor_eval, zpow_add₀ hb, zpow_one, smul_eq_mul]
  push_cast
  ring_nf

theorem polyExp_add (p q : K[X]) (b : K) : polyExp (p + q) b = polyExp p b + polyExp q b := by
  funext n; simp [polyExp, add_mul]

theorem polyExp_smul (c : K) (q : K[X]) (b : K) : polyExp (c • q) b = c • polyExp q b := by
  funext n; simp [polyExp, mul_assoc]

theorem aeval_polyExp {b : K} (hb : b ≠ 0) (P q : K[X]) :
    (aeval (shiftE : Module.End K (ℤ → K)) P) (polyExp q b)
      = polyExp ((aeval (shiftPoly b : Module.End K K[X]) P) q) b := by
  have hpow : ∀ m : ℕ, ((shiftE : Module.End K (ℤ → K)) ^ m) (polyExp q b)
      = polyExp (((shiftPoly b : Module.End K K[X]) ^ m) q) b := by
    intro m
    induction m with
    | zero => simp
    | succ m ih => rw [pow_succ', pow_succ', Module.End.mul_apply, Module.End.mul_apply, ih, shift_polyExp hb]
  induction P using Polynomial.induction_on' with
  | add P Q h1 h2 =>
    rw [map_add, map_add, LinearMap.add_apply, LinearMap.add_apply, polyExp_add, h1, h2]
  | monomial m c =>
    rw [aeval_monomial, aeval_monomial, Module.End.mul_apply, Module.End.mul_apply, hpow]
    show c • _ = polyExp (c • _) b
    rw [polyExp_smul]
    rfl

theorem degree_shiftPoly_le (b : K) (q : K[X]) : (shiftPoly b q).degree ≤ q.degree := by
  unfold shiftPoly
  rw [LinearMap.smul_apply]
  refine (degree_smul_le _ _).trans ?_
  rw [degree_taylor]

theorem degree_shift_pow (b : K) (m : ℕ) (q : K[X]) (hq : q ≠ 0) :
    (((shiftPoly b : Module.End K K[X]) ^ m) q - C (b ^ m) * q).degree < q.degree := by
  induction m with
  | zero => simp [bot_lt_iff_ne_bot, hq]
  | succ m ih =>
    rw [pow_succ', Module.End.mul_apply]
    have e : shiftPoly b (((shiftPoly b : Module.End K K[X]) ^ m) q) - C (b ^ (m + 1)) * q
        = shiftPoly b (((shiftPoly b : Module.End K K[X]) ^ m) q - C (b ^ m) * q)
          + C (b ^ (m + 1)) * (taylor 1 q - q) := by
      rw [map_sub, ← smul_eq_C_mul (b ^ m), map_smul]
      simp only [shiftPoly, LinearMap.smul_apply, smul_eq_C_mul, pow_succ, C_mul]
      ring
    rw [e]
    refine lt_of_le_of_lt (degree_add_le _ _) (max_lt ?_ ?_)
    · exact lt_of_le_of_lt (degree_shiftPoly_le _ _) ih
    · refine lt_of_le_of_lt ?_ (degree_diff_lt hq)
      rw [← smul_eq_C_mul]
      exact degree_smul_le _ _

theorem degree_op (b : K) (P q : K[X]) (hq : q ≠ 0) :
    ((aeval (shiftPoly b : Module.End K K[X]) P) q - C (P.eval b) * q).degree < q.degree := by
  induction P using Polynomial.induction_on' with
  | add P Q h1 h2 =>
    have e : (aeval (shiftPoly b : Module.End K K[X]) (P + Q)) q - C ((P + Q).eval b) * q
        = ((aeval (shiftPoly b : Module.End K K[X]) P) q - C (P.eval b) * q)
          + ((aeval (shiftPoly b : Module.End K K[X]) Q) q - C (Q.eval b) * q) := by
      rw [map_add, LinearMap.add_apply, eval_add, C_add]; ring
    rw [e]
    exact lt_of_le_of_lt (degree_add_le _ _) (max_lt h1 h2)
  | monomial m c =>
    rw [aeval_monomial, eval_monomial, Module.End.mul_apply]
    show (c • ((shiftPoly b : Module.End K K[X]) ^ m) q - C (c * b ^ m) * q : K[X]).degree < _
    have e : c • ((shiftPoly b : Module.End K K[X]) ^ m) q - C (c * b ^ m) * q
        = c • (((shiftPoly b : Module.End K K[X]) ^ m) q - C (b ^ m) * q) := by
      simp only [smul_eq_C_mul, C_mul]; ring
    rw [e]
    exact lt_of_le_of_lt (degree_smul_le _ _) (degree_shift_pow b m q hq)

/-- If `P(b) ≠ 0` the operator is injective on polynomials. -/
theorem op_injective (b : K) (P q : K[X]) (hP : P.eval b ≠ 0)
    (h : (aeval (shiftPoly b : Module.End K K[X]) P) q = 0) : q = 0 := by
  by_contra hq
  have := degree_op b P q hq
  rw [h, zero_sub, degree_neg, degree_C_mul hP] at this
  exact lt_irrefl _ this

/-- If `P(b) ≠ 0` the operator is surjective and keeps the degree. -/
theorem op_surjective (b : K) (P : K[X]) (hP : P.eval b ≠ 0) :
    ∀ p : K[X], ∃ q : K[X], q.degree ≤ p.degree ∧ (aeval (shiftPoly b : Module.End K K[X]) P) q = p := by
  intro p
  induction p using WellFounded.induction (degree_lt_wf (R := K)) with
  | _ p ih =>
    by_cases hp : p = 0
    · exact ⟨0, by simp [hp], by simp [hp]⟩
    · have hne : (P.eval b)⁻¹ ≠ 0 := inv_ne_zero hP
      have hq0 : C (P.eval b)⁻¹ * p ≠ 0 := mul_ne_zero (C_ne_zero.mpr hne) hp
      have hd := degree_op b P (C (P.eval b)⁻¹ * p) hq0
      have e : C (P.eval b) * (C (P.eval b)⁻¹ * p) = p := by
        rw [← mul_assoc, ← C_mul, mul_inv_cancel₀ hP, C_1, one_mul]
      rw [e, degree_C_mul hne] at hd
      obtain ⟨q1, h1, h2⟩ := ih _ hd
      refine ⟨C (P.eval b)⁻¹ * p - q1, ?_, ?_⟩
      · refine (degree_sub_le _ _).trans (max_le ?_ ?_)
        · rw [degree_C_mul hne]
        · exact h1.trans hd.le
      · rw [map_sub, h2]; ring

/-- In characteristic 0 every polynomial is a difference, of degree one more. -/
theorem diff_surjective [CharZero K] (b : K) (hb : b ≠ 0) :
    ∀ p : K[X], ∃ q : K[X], (∀ d : ℕ, p.degree < d → q.degree < (d + 1 : ℕ)) ∧
      (aeval (shiftPoly b : Module.End K K[X]) (X - C b)) q = p := by
  intro p
  induction p using WellFounded.induction (degree_lt_wf (R := K)) with
  | _ p ih =>
    by_cases hp : p = 0
    · exact ⟨0, fun d _ => by simp, by simp [hp]⟩
    · have hop : ∀ q : K[X], (aeval (shiftPoly b : Module.End K K[X]) (X - C b)) q = b • (taylor 1 q - q) := by
        intro q
        rw [map_sub, aeval_X, aeval_C, LinearMap.sub_apply]
        show b • taylor 1 q - b • q = _
        rw [smul_sub]
      set d := p.natDegree with hd
      have hd1 : ((d : K) + 1) ≠ 0 := by exact_mod_cast Nat.succ_ne_zero d
      set c : K := p.leadingCoeff / (b * (d + 1)) with hc
      have hx : ((X + C 1) ^ (d + 1) - X ^ (d + 1) : K[X]).degree < ((d + 1 : ℕ) : WithBot ℕ) := by
        have := degree_diff_lt (q := (X ^ (d + 1) : K[X])) (pow_ne_zero _ X_ne_zero)
        rwa [taylor_X_pow, degree_X_pow] at this
      have hco : ((X + C 1) ^ (d + 1) - X ^ (d + 1) : K[X]).coeff d = (d : K) + 1 := by
        rw [coeff_sub, coeff_X_pow, if_neg (by omega), sub_zero, C_1, coeff_X_add_one_pow]
        simp
      have hq0 : (aeval (shiftPoly b : Module.End K K[X]) (X - C b)) (C c * X ^ (d + 1))
          = C (b * c) * ((X + C 1) ^ (d + 1) - X ^ (d + 1)) := by
        rw [hop, ← smul_eq_C_mul c, map_smul, taylor_X_pow, ← smul_sub, smul_smul, smul_eq_C_mul]
      have herr : (p - C (b * c) * ((X + C 1) ^ (d + 1) - X ^ (d + 1))).degree < p.degree := by
        rw [degree_eq_natDegree hp, ← hd]
        rw [degree_lt_iff_coeff_zero]
        intro m hm
        rcases Nat.eq_or_lt_of_le hm with e | hlt
        · subst e
          rw [coeff_sub, coeff_C_mul, hco, hc]
          rw [hd, coeff_natDegree, ← hd]
          field_simp
          ring
        · rw [coeff_sub, coeff_C_mul, coeff_eq_zero_of_natDegree_lt (by omega),
            coeff_eq_zero_of_degree_lt (lt_of_lt_of_le hx (by exact_mod_cast hlt))]
          ring
      obtain ⟨q1, h1, h2⟩ := ih _ herr
      refine ⟨C c * X ^ (d + 1) + q1, ?_, ?_⟩
      · intro e he
        refine lt_of_le_of_lt (degree_add_le _ _) (max_lt ?_ (h1 e (herr.trans he)))
        refine lt_of_le_of_lt (degree_C_mul_X_pow_le _ _) ?_
        rw [degree_eq_natDegree hp, ← hd] at he
        have : d < e := by exact_mod_cast he
        exact_mod_cast (show d + 1 < e + 1 by omega)
      · rw [map_add, hq0, h2]; ring

theorem diff_pow_surjective [CharZero K] (b : K) (hb : b ≠ 0) (m : ℕ) :
    ∀ p : K[X], ∃ q : K[X], (∀ d : ℕ, p.degree < d → q.degree < (d + m : ℕ)) ∧
      (aeval (shiftPoly b : Module.End K K[X]) ((X - C b) ^ m)) q = p := by
  induction m with
  | zero => intro p; exact ⟨p, by simp, by simp⟩
  | succ m ih =>
    intro p
    obtain ⟨q1, h1, h2⟩ := diff_surjective b hb p
    obtain ⟨q2, h3, h4⟩ := ih q1
    refine ⟨q2, fun d hd => ?_, ?_⟩
    · have := h3 (d + 1) (h1 d hd)
      rwa [show d + 1 + m = d + (m + 1) by omega] at this
    · rw [pow_succ', map_mul, Module.End.mul_apply, h4, h2]

/-- A polynomial times an exponential that vanishes at all integers is zero. -/
theorem polyExp_eq_zero [CharZero K] {b : K} (hb : b ≠ 0) {q : K[X]} (h : ∀ n : ℤ, polyExp q b n = 0) : q = 0 := by
  apply eq_zero_of_infinite_isRoot
  refine Set.Infinite.mono ?_ (Set.infinite_range_of_injective (Int.cast_injective (α := K)))
  rintro _ ⟨n, rfl⟩
  have := h n
  exact (mul_eq_zero.mp this).resolve_right (zpow_ne_zero _ hb)

theorem baseMult_spec [DecidableEq K] (roots : List (K × ℕ)) (b : K) (hnd : (roots.map Prod.fst).Nodup) :
    ∃ S : K[X], S.eval b ≠ 0 ∧
      ((roots.map fun r => (X - C r.1) ^ r.2).prod : K[X]) = S * (X - C b) ^ baseMult roots b := by
  have h0 : ∀ l : List (K × ℕ), b ∉ l.map Prod.fst →
      ((l.map fun r => (X - C r.1) ^ r.2).prod : K[X]).eval b ≠ 0 := by
    intro l hl
    induction l with
    | nil => simp
    | cons r l ih =>
      rw [List.map_cons, List.mem_cons, not_or] at hl
      rw [List.map_cons, List.prod_cons, eval_mul]
      refine mul_ne_zero ?_ (ih hl.2)
      rw [eval_pow, eval_sub, eval_X, eval_C]
      exact pow_ne_zero _ (sub_ne_zero.mpr hl.1)
  induction roots with
  | nil => exact ⟨1, by simp, by simp [baseMult]⟩
  | cons r l ih =>
    rw [List.map_cons, List.nodup_cons] at hnd
    by_cases e : r.1 = b
    · refine ⟨(l.map fun r => (X - C r.1) ^ r.2).prod, h0 l (e ▸ hnd.1), ?_⟩
      rw [List.map_cons, List.prod_cons, mul_comm]
      simp [baseMult, e]
    · obtain ⟨S, h1, h2⟩ := ih hnd.2
      refine ⟨(X - C r.1) ^ r.2 * S, ?_, ?_⟩
      · rw [eval_mul, eval_pow, eval_sub, eval_X, eval_C]
        exact mul_ne_zero (pow_ne_zero _ (sub_ne_zero.mpr (Ne.symm e))) h1
      · rw [List.map_cons, List.prod_cons, h2, mul_assoc]
        simp [baseMult, e]

/-- The equations for the special solution always have a solution when the roots are distinct and
their multiplicities right: `compute_special_solution` cannot fail. -/
theorem C63_special_solvable [CharZero K] [DecidableEq K] (R : LinRec K) (roots : List (K × ℕ))
    (hr : AreRoots R roots) (hnd : (roots.map Prod.fst).Nodup) (poly : K[X]) (base : K) (hb : base ≠ 0) :
    ∃ c, SpecialSolved R poly base (baseMult roots base) c := by
  obtain ⟨S, hS, hfac⟩ := baseMult_spec roots base hnd
  set m := baseMult roots base with hm
  obtain ⟨q1, h1, h2⟩ := op_surjective base S hS (C (base ^ R.k) * taylor (R.k : K) poly)
  obtain ⟨q, h3, h4⟩ := diff_pow_surjective base hb m q1
  have hop : (aeval (shiftPoly base : Module.End K K[X]) (charPoly R)) q = C (base ^ R.k) * taylor (R.k : K) poly := by
    rw [hr, hfac, map_mul, Module.End.mul_apply, h4, h2]
  have hdeg : q.natDegree ≤ poly.natDegree + m := by
    have hp1 : q1.degree < ((poly.natDegree + 1 : ℕ) : WithBot ℕ) := by
      refine lt_of_le_of_lt h1 ?_
      refine lt_of_le_of_lt (b := poly.degree) ?_ ?_
      · rw [degree_C_mul (pow_ne_zero _ hb), degree_taylor]
      · exact lt_of_le_of_lt degree_le_natDegree (by exact_mod_cast Nat.lt_succ_self _)
    have := h3 _ hp1
    by_cases q0 : q = 0
    · simp [q0]
    · rw [degree_eq_natDegree q0] at this
      have : q.natDegree < poly.natDegree + 1 + m := by exact_mod_cast this
      omega
  refine ⟨q.coeff, ?_⟩
  have hq : specialPoly q.coeff (poly.natDegree + m) = q := by
    unfold specialPoly
    rw [q.as_sum_range' (poly.natDegree + m + 1) (by omega)]
    refine sum_congr rfl fun i hi => ?_
    rw [← C_mul_X_pow_eq_monomial, mul_comm]
    congr 2
    rw [← q.as_sum_range' (poly.natDegree + m + 1) (by omega)]
  intro i _
  rw [hq]
  have hzero : specialDiff R.a R.k poly base q = 0 := by
    apply polyExp_eq_zero hb
    intro n
    have e := congrFun (aeval_polyExp hb (charPoly R) q) (n - R.k)
    rw [aeval_charPoly, hop, sub_add_cancel] at e
    have e2 : polyExp (C (base ^ R.k) * taylor (R.k : K) poly) base (n - R.k) = poly.eval (n : K) * base ^ n := by
      unfold polyExp
      rw [eval_mul, eval_C, taylor_eval, zpow_sub₀ hb, zpow_natCast]
      push_cast
      rw [sub_add_cancel]
      have := pow_ne_zero R.k hb
      field_simp
    rw [e2] at e
    have e3 : polyExp (specialDiff R.a R.k poly base q) base n
        = polyExp q base n - (∑ j ∈ range R.k, R.a (j + 1) * polyExp q base (n - ((j : ℤ) + 1)))
          - poly.eval (n : K) * base ^ n := by
      unfold polyExp specialDiff
      rw [eval_sub, eval_sub, eval_finsetSum, sub_mul, sub_mul, sum_mul]
      congr 2
      refine sum_congr rfl fun j _ => ?_
      rw [eval_mul, eval_C, eval_comp, eval_sub, eval_X, eval_C, sub_eq_add_neg n, zpow_add₀ hb]
      push_cast
      rw [sub_eq_add_neg]
      ring
    rw [e3, e, sub_self]
  rw [hzero, coeff_zero]

/-- Sums of polynomials times distinct exponentials are linearly independent. -/
theorem polyExp_indep [CharZero K] : ∀ (l : List (K × K[X])), (l.map Prod.fst).Nodup → (∀ b ∈ l, b.1 ≠ 0) →
    (∀ n : ℤ, (l.map fun b => polyExp b.2 b.1 n).sum = 0) → ∀ b ∈ l, b.2 = 0 := by
  intro l
  generalize hlen : l.length = N
  induction N generalizing l with
  | zero => intro _ _ _ b hb; rw [List.length_eq_zero_iff] at hlen; subst hlen; simp at hb
  | succ N ih =>
    match l, hlen with
    | r :: l, hlen =>
      intro hnd hne hz
      rw [List.map_cons, List.nodup_cons] at hnd
      have hr0 : r.1 ≠ 0 := hne r (by simp)
      set P : K[X] := (X - C r.1) ^ (r.2.natDegree + 1) with hP
      have hfun : (polyExp r.2 r.1 + (l.map fun b => polyExp b.2 b.1).sum : ℤ → K) = 0 := by
        funext n
        have := hz n
        rw [List.map_cons, List.sum_cons] at this
        rw [Pi.add_apply, Pi.zero_apply, ← this]
        congr 1
        clear this hz hnd hne ih hlen
        induction l with
        | nil => simp
        | cons a l ih => simp [ih]
      have hop := congrArg (aeval (shiftE : Module.End K (ℤ → K)) P) hfun
      rw [map_add, map_zero, kill_polyExp hr0 _ _ (lt_of_le_of_lt degree_le_natDegree
        (by exact_mod_cast Nat.lt_succ_self _)), zero_add] at hop
      have hmap : ∀ l' : List (K × K[X]), (∀ b ∈ l', b.1 ≠ 0) →
          (aeval (shiftE : Module.End K (ℤ → K)) P) (l'.map fun b => polyExp b.2 b.1).sum
          = ((l'.map fun b => (b.1, (aeval (shiftPoly b.1 : Module.End K K[X]) P) b.2)).map
              fun b => polyExp b.2 b.1).sum := by
        intro l' h'
        induction l' with
        | nil => simp
        | cons a l' ih' =>
          simp only [List.map_cons, List.sum_cons, map_add]
          rw [ih' fun b hb => h' b (by simp [hb]), aeval_polyExp (h' a (by simp))]
      rw [hmap l fun b hb => hne b (by simp [hb])] at hop
      have hih := ih (l.map fun b => (b.1, (aeval (shiftPoly b.1 : Module.End K K[X]) P) b.2))
        (by simpa using hlen)
        (by rw [List.map_map]; exact hnd.2)
        (by intro b hb; rw [List.mem_map] at hb; obtain ⟨c, hc, rfl⟩ := hb; exact hne c (by simp [hc]))
        (by
          intro n
          have := congrFun hop n
          rw [Pi.zero_apply] at this
          rw [← this]
          generalize (l.map fun b => (b.1, (aeval (shiftPoly b.1 : Module.End K K[X]) P) b.2)) = L
          induction L with
          | nil => simp
          | cons a L ihL => simp [ihL])
      have htail : ∀ b ∈ l, b.2 = 0 := by
        intro b hb
        have := hih _ (List.mem_map.mpr ⟨b, hb, rfl⟩)
        refine op_injective b.1 P b.2 ?_ this
        rw [hP, eval_pow, eval_sub, eval_X, eval_C]
        refine pow_ne_zero _ (sub_ne_zero.mpr ?_)
        intro e
        exact hnd.1 (List.mem_map.mpr ⟨b, hb, e⟩)
      intro b hb
      rcases List.mem_cons.mp hb with rfl | hb
      · apply polyExp_eq_zero hr0
        intro n
        have := hz n
        rw [List.map_cons, List.sum_cons] at this
        have h0 : (l.map fun b => polyExp b.2 b.1 n).sum = 0 := by
          apply List.sum_eq_zero
          intro y hy
          rw [List.mem_map] at hy
          obtain ⟨c, hc, rfl⟩ := hy
          simp [htail c hc, polyExp]
        rwa [h0, add_zero] at this
      · exact htail b hb

/-- The polynomials multiplying the exponentials in `general_solution`. -/
noncomputable def blocks (u : ℕ → K) : List (K × ℕ) → ℕ → List (K × K[X])
  | [], _ => []
  | r :: rs, h => (r.1, ∑ j ∈ range r.2, C (u (h + j)) * X ^ j) :: blocks u rs (h + r.2)

theorem blocks_fst (u : ℕ → K) (roots : List (K × ℕ)) (h : ℕ) :
    (blocks u roots h).map Prod.fst = roots.map Prod.fst := by
  induction roots generalizing h with
  | nil => rfl
  | cons r rs ih => simp [blocks, ih]

theorem combo_eq_blocks (u : ℕ → K) (roots : List (K × ℕ)) (h : ℕ) (n : ℤ) :
    combo u (homBasis roots) h n = ((blocks u roots h).map fun b => polyExp b.2 b.1 n).sum := by
  induction roots generalizing h with
  | nil => simp [homBasis, combo, blocks]
  | cons r rs ih =>
    have e2 : homBasis (r :: rs) = ((List.range r.2).map fun j => fun (n : ℤ) => r.1 ^ n * (n : K) ^ j) ++ homBasis rs := by
      simp [homBasis]
    rw [e2, combo_append, ih, blocks, List.map_cons, List.sum_cons]
    congr 1
    · unfold polyExp
      rw [eval_finsetSum, sum_mul]
      have : ∀ m : ℕ, combo u ((List.range m).map fun j => fun (n : ℤ) => r.1 ^ n * (n : K) ^ j) h n
          = ∑ j ∈ range m, (C (u (h + j)) * X ^ j : K[X]).eval (n : K) * r.1 ^ n := by
        intro m
        induction m with
        | zero => simp [combo]
        | succ m ihm =>
          rw [List.range_succ, List.map_append, combo_append, ihm, sum_range_succ]
          congr 1
          simp [combo]
          ring
      exact this r.2
    · simp

theorem blocks_zero (u : ℕ → K) (roots : List (K × ℕ)) (h : ℕ) (hz : ∀ b ∈ blocks u roots h, b.2 = 0) :
    ∀ i < (roots.map Prod.snd).sum, u (h + i) = 0 := by
  induction roots generalizing h with
  | nil => intro i hi; simp at hi
  | cons r rs ih =>
    intro i hi
    rw [List.map_cons, List.sum_cons] at hi
    by_cases hlt : i < r.2
    · have := hz _ (by rw [blocks]; exact List.mem_cons_self)
      dsimp only at this
      have := congrArg (fun p => coeff p i) this
      simp only [finsetSum_coeff, coeff_C_mul_X_pow, coeff_zero] at this
      rw [sum_ite_eq] at this
      simpa [hlt] using this
    · have := ih (h + r.2) (fun b hb => hz b (by rw [blocks]; exact List.mem_cons_of_mem _ hb)) (i - r.2) (by omega)
      rwa [show h + r.2 + (i - r.2) = h + i by omega] at this

/-- A homogeneous solution vanishing at `k` consecutive indices vanishes everywhere. -/
theorem hom_zero_of_init {R : LinRec K} (hk : 1 ≤ R.k) (ha : R.a R.k ≠ 0) {g : ℤ → K} (hg : Hom R g)
    (m : ℤ) (h0 : ∀ i < R.k, g (m + i) = 0) : ∀ n, g n = 0 := by
  have fwd : ∀ d : ℕ, g (m + d) = 0 := by
    intro d
    induction d using Nat.strong_induction_on with
    | _ d ih =>
      by_cases hd : d < R.k
      · exact h0 d hd
      · rw [hg]
        refine sum_eq_zero fun j hj => ?_
        rw [mem_range] at hj
        rw [show m + (d : ℤ) - ((j : ℤ) + 1) = m + ((d - (j + 1) : ℕ) : ℤ) by
          push_cast [Nat.cast_sub (show j + 1 ≤ d by omega)]; ring, ih _ (by omega), mul_zero]
  have bwd : ∀ d : ℕ, g (m - d) = 0 := by
    intro d
    induction d using Nat.strong_induction_on with
    | _ d ih =>
      rcases Nat.eq_zero_or_pos d with rfl | hd
      · simpa using fwd 0
      · have all : ∀ e : ℤ, m - d < e → e ≤ m - d + R.k → g e = 0 := by
          intro e h1 _
          by_cases he : m ≤ e
          · have := fwd (e - m).toNat
            rwa [show m + ((e - m).toNat : ℤ) = e by omega] at this
          · have := ih (m - e).toNat (by omega)
            rwa [show m - ((m - e).toNat : ℤ) = e by omega] at this
        have e := hg (m - d + R.k)
        rw [all _ (by omega) (by omega)] at e
        obtain ⟨k', hk'⟩ : ∃ k', R.k = k' + 1 := ⟨R.k - 1, by omega⟩
        rw [hk', sum_range_succ, sum_eq_zero, zero_add] at e
        · have e' : m - (d : ℤ) + ((k' + 1 : ℕ) : ℤ) - ((k' : ℤ) + 1) = m - d := by push_cast; ring
          rw [e', ← hk'] at e
          exact (mul_eq_zero.mp e.symm).resolve_left ha
        · intro j hj
          rw [mem_range] at hj
          rw [all _ (by push_cast; omega) (by push_cast; omega), mul_zero]
  intro n
  by_cases hn : m ≤ n
  · have := fwd (n - m).toNat
    rwa [show m + ((n - m).toNat : ℤ) = n by omega] at this
  · have := bwd (m - n).toNat
    rwa [show m - ((m - n).toNat : ℤ) = n by omega] at this

/-- The linear system that determines the constants from the initial conditions always has a
solution when the roots are distinct and their multiplicities right. -/
theorem C63_constants_solvable [CharZero K] (R : LinRec K) (roots : List (K × ℕ)) (hk : 1 ≤ R.k)
    (ha : R.a R.k ≠ 0) (hr : AreRoots R roots) (hm : ∀ r ∈ roots, 1 ≤ r.2)
    (hnd : (roots.map Prod.fst).Nodup) (s x : ℤ → K) :
    ∃ u, ICSolved R.f roots u s x := by
  have hord : numUnknowns roots = R.k := order_eq hr
  let ext : (Fin R.k → K) → ℕ → K := fun v i => if h : i < R.k then v ⟨i, h⟩ else 0
  have ext_add : ∀ v w, ext (v + w) = fun i => ext v i + ext w i := by
    intro v w; funext i; by_cases h : i < R.k <;> simp [ext, h]
  have ext_smul : ∀ (c : K) v, ext (c • v) = fun i => c * ext v i := by
    intro c v; funext i; by_cases h : i < R.k <;> simp [ext, h]
  have combo_add : ∀ (u v : ℕ → K) (l : List (ℤ → K)) (h : ℕ) (n : ℤ),
      combo (fun i => u i + v i) l h n = combo u l h n + combo v l h n := by
    intro u v l h n
    induction l generalizing h with
    | nil => simp [combo]
    | cons b l ih => simp only [combo, List.zipIdx_cons, List.map_cons, List.sum_cons] at ih ⊢; rw [ih]; ring
  have combo_smul : ∀ (c : K) (u : ℕ → K) (l : List (ℤ → K)) (h : ℕ) (n : ℤ),
      combo (fun i => c * u i) l h n = c * combo u l h n := by
    intro c u l h n
    induction l generalizing h with
    | nil => simp [combo]
    | cons b l ih => simp only [combo, List.zipIdx_cons, List.map_cons, List.sum_cons] at ih ⊢; rw [ih]; ring
  let Φ : (Fin R.k → K) →ₗ[K] (Fin R.k → K) :=
    { toFun := fun v i => combo (ext v) (homBasis roots) 0 ((R.f : ℤ) + (i : ℕ))
      map_add' := by intro v w; funext i; rw [ext_add, combo_add]; rfl
      map_smul' := by intro c v; funext i; rw [ext_smul, combo_smul]; rfl }
  have hinj : Function.Injective Φ := by
    rw [injective_iff_map_eq_zero]
    intro v hv
    have h1 : ∀ n, combo (ext v) (homBasis roots) 0 n = 0 := by
      refine hom_zero_of_init hk ha (combo_hom _ _ (homBasis_hom hr hk ha) 0) (R.f : ℤ) ?_
      intro i hi
      exact congrFun hv ⟨i, hi⟩
    have h2 := polyExp_indep (blocks (ext v) roots 0) (by rw [blocks_fst]; exact hnd)
      (by
        intro b hb
        have : b.1 ∈ (blocks (ext v) roots 0).map Prod.fst := List.mem_map.mpr ⟨b, hb, rfl⟩
        rw [blocks_fst, List.mem_map] at this
        obtain ⟨r, hr1, e⟩ := this
        rw [← e]
        exact root_ne_zero hr hk ha hr1 (hm r hr1))
      (fun n => by rw [← combo_eq_blocks, h1])
    have h3 := blocks_zero (ext v) roots 0 h2
    funext i
    have := h3 i (by rw [order_eq hr]; exact i.2)
    simpa [ext] using this
  obtain ⟨v, hv⟩ := LinearMap.injective_iff_surjective.mp hinj
    (fun i => x ((R.f : ℤ) + (i : ℕ)) - s ((R.f : ℤ) + (i : ℕ)))
  refine ⟨ext v, ?_⟩
  intro i hi
  rw [hord] at hi
  have := congrFun hv ⟨i, hi⟩
  unfold generalSolution
  rw [generalHom_eq]
  have h4 : combo (ext v) (homBasis roots) 0 ((R.f : ℤ) + i) = x ((R.f : ℤ) + i) - s ((R.f : ℤ) + i) := this
  rw [h4]; ring

end Purrs.Exact
