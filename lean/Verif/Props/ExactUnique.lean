import Verif.Props.ExactComplete

/-!
# C147 (value level): which coefficients the equations of the new method determine
-/

set_option linter.unusedSectionVars false

namespace Purrs.Exact

open Polynomial Finset

variable {K : Type} [Field K]

theorem op_diff (b : K) (q : K[X]) : (aeval (shiftPoly b : Module.End K K[X]) (X - C b)) q = b • (taylor 1 q - q) := by
  rw [map_sub, aeval_X, aeval_C, LinearMap.sub_apply]
  show b • taylor 1 q - b • q = _
  rw [smul_sub]

/-- The polynomials annihilated by the `m`-th power of the difference operator are those of degree less than `m`. -/
theorem diff_pow_kernel [CharZero K] {b : K} (hb : b ≠ 0) (m : ℕ) (d : K[X]) :
    (aeval (shiftPoly b : Module.End K K[X]) ((X - C b) ^ m)) d = 0 ↔ d.degree < m := by
  induction m generalizing d with
  | zero => simp [Polynomial.ext_iff]
  | succ m ih =>
    rw [pow_succ, map_mul, Module.End.mul_apply, ih]
    constructor
    · intro h
      obtain ⟨q, h1, h2⟩ := diff_surjective b hb ((aeval (shiftPoly b : Module.End K K[X]) (X - C b)) d)
      have h3 : (aeval (shiftPoly b : Module.End K K[X]) (X - C b)) (d - q) = 0 := by rw [map_sub, h2, sub_self]
      rw [op_diff] at h3
      have h4 : taylor 1 (d - q) = d - q := sub_eq_zero.mp ((smul_eq_zero.mp h3).resolve_left hb)
      have h5 : ∀ i : ℕ, (d - q).eval (i : K) = (d - q).eval 0 := by
        intro i
        induction i with
        | zero => simp
        | succ i ihi =>
          have := congrArg (Polynomial.eval (i : K)) h4
          rw [taylor_eval] at this
          push_cast
          rw [this, ihi]
      have h6 : d - q = C ((d - q).eval 0) := by
        refine Polynomial.eq_of_infinite_eval_eq _ _ ?_
        refine (Set.infinite_range_of_injective (Nat.cast_injective (R := K))).mono ?_
        rintro _ ⟨i, rfl⟩
        show _ = _
        rw [h5, eval_C]
      have h7 : d = q + C ((d - q).eval 0) := by rw [← h6]; ring
      rw [h7]
      refine lt_of_le_of_lt (degree_add_le _ _) (max_lt (h1 m h) (lt_of_le_of_lt degree_C_le ?_))
      exact_mod_cast Nat.succ_pos m
    · intro h
      by_cases hd : d = 0
      · subst hd; simp
      rw [op_diff]
      refine lt_of_le_of_lt (degree_smul_le _ _) ?_
      have h1 := degree_diff_lt hd
      by_cases h0 : taylor 1 d - d = 0
      · rw [h0]; simp
      rw [degree_eq_natDegree hd] at h h1
      rw [degree_eq_natDegree h0] at h1 ⊢
      have h2 : (taylor 1 d - d).natDegree < d.natDegree := by exact_mod_cast h1
      have h3 : d.natDegree < m + 1 := by exact_mod_cast h
      exact_mod_cast (show (taylor 1 d - d).natDegree < m by omega)

theorem specialSolved_iff (R : LinRec K) (poly : K[X]) (b : K) (mult : ℕ) (c : ℕ → K) :
    SpecialSolved R poly b mult c ↔ specialDiff R.a R.k poly b (specialPoly c (poly.natDegree + mult)) = 0 := by
  constructor
  · intro h
    ext i
    rw [coeff_zero]
    by_cases hi : i < poly.natDegree + mult + 1
    · exact h i hi
    · apply coeff_eq_zero_of_natDegree_lt
      have := natDegree_specialDiff R.a R.k poly (specialPoly c (poly.natDegree + mult)) b
        (poly.natDegree + mult) (by omega) (natDegree_specialPoly c _)
      omega
  · intro h i _
    show (specialDiff R.a R.k poly b (specialPoly c (poly.natDegree + mult))).coeff i = 0
    rw [h, coeff_zero]

theorem specialDiff_sub (a : ℕ → K) (k : ℕ) (poly : K[X]) (b : K) (q q' : K[X]) :
    specialDiff a k poly b q - specialDiff a k poly b q' = specialDiff a k 0 b (q - q') := by
  unfold specialDiff
  simp only [sub_comp, mul_sub, sum_sub_distrib]
  ring

theorem specialDiff_zero_iff [CharZero K] (R : LinRec K) {b : K} (hb : b ≠ 0) (q : K[X]) :
    specialDiff R.a R.k 0 b q = 0 ↔ (aeval (shiftPoly b : Module.End K K[X]) (charPoly R)) q = 0 := by
  have e3 : ∀ n : ℤ, polyExp (specialDiff R.a R.k 0 b q) b n
      = polyExp ((aeval (shiftPoly b : Module.End K K[X]) (charPoly R)) q) b (n - R.k) := by
    intro n
    have e := congrFun (aeval_polyExp hb (charPoly R) q) (n - R.k)
    rw [aeval_charPoly, sub_add_cancel] at e
    rw [← e]
    unfold polyExp specialDiff
    rw [eval_sub, eval_sub, eval_finsetSum, sub_mul, sub_mul, sum_mul, eval_zero, zero_mul, sub_zero]
    congr 1
    refine sum_congr rfl fun j _ => ?_
    rw [eval_mul, eval_C, eval_comp, eval_sub, eval_X, eval_C, sub_eq_add_neg n, zpow_add₀ hb]
    push_cast
    rw [sub_eq_add_neg]
    ring
  constructor
  · intro h
    apply polyExp_eq_zero hb
    intro n
    have := e3 (n + R.k)
    rw [h, add_sub_cancel_right] at this
    rw [← this]
    simp [polyExp]
  · intro h
    apply polyExp_eq_zero hb
    intro n
    rw [e3, h]
    simp [polyExp]

theorem specialPoly_sub (c c' : ℕ → K) (d : ℕ) : specialPoly c d - specialPoly c' d = specialPoly (fun i => c i - c' i) d := by
  unfold specialPoly
  rw [← sum_sub_distrib]
  refine sum_congr rfl fun i _ => ?_
  rw [C_sub]; ring

theorem coeff_specialPoly (c : ℕ → K) (d i : ℕ) : (specialPoly c d).coeff i = if i < d + 1 then c i else 0 := by
  unfold specialPoly
  rw [finsetSum_coeff]
  have : ∀ j ∈ range (d + 1), (X ^ j * C (c j) : K[X]).coeff i = if i = j then c j else 0 := by
    intro j _
    rw [mul_comm, coeff_C_mul_X_pow]
  rw [sum_congr rfl this, sum_ite_eq]
  simp

/-- **C147** (value level).  If the roots are distinct and have the right multiplicities, the coefficients of the ansatz left undetermined by the
equations are exactly the first ones, as many as the multiplicity of the base; the others are determined. -/
theorem C147_undetermined_coefficients [CharZero K] [DecidableEq K] (R : LinRec K) (roots : List (K × ℕ)) (hr : AreRoots R roots)
    (hnd : (roots.map Prod.fst).Nodup) (poly : K[X]) (b : K) (hb : b ≠ 0) {c : ℕ → K} (hc : SpecialSolved R poly b (baseMult roots b) c)
    (c' : ℕ → K) : SpecialSolved R poly b (baseMult roots b) c' ↔
      ∀ i, baseMult roots b ≤ i → i ≤ poly.natDegree + baseMult roots b → c' i = c i := by
  obtain ⟨S, hS, hfac⟩ := baseMult_spec roots b hnd
  set m := baseMult roots b with hm
  rw [specialSolved_iff] at hc ⊢
  set D := poly.natDegree + m with hD
  have h1 : specialDiff R.a R.k poly b (specialPoly c' D) = 0 ↔ specialDiff R.a R.k 0 b (specialPoly (fun i => c' i - c i) D) = 0 := by
    rw [← specialPoly_sub, ← specialDiff_sub, hc, sub_zero]
  rw [h1, specialDiff_zero_iff R hb, hr, hfac, map_mul, Module.End.mul_apply]
  have h2 : ∀ q : K[X], (aeval (shiftPoly b : Module.End K K[X]) S) q = 0 ↔ q = 0 :=
    fun q => ⟨op_injective b S q hS, fun h => by rw [h, map_zero]⟩
  rw [h2, diff_pow_kernel hb, degree_lt_iff_coeff_zero]
  constructor
  · intro h i h3 h4
    have := h i (by exact_mod_cast h3)
    rw [coeff_specialPoly, if_pos (by omega)] at this
    exact sub_eq_zero.mp this
  · intro h i h3
    rw [coeff_specialPoly]
    split
    · next h4 => exact sub_eq_zero.mpr (h i (by exact_mod_cast h3) (by omega))
    · rfl

/-- The constants of the general solution are determined by the initial conditions. -/
theorem C147_constants_determined [CharZero K] (R : LinRec K) (roots : List (K × ℕ)) (hk : 1 ≤ R.k) (ha : R.a R.k ≠ 0) (hr : AreRoots R roots)
    (hm : ∀ r ∈ roots, 1 ≤ r.2) (hnd : (roots.map Prod.fst).Nodup) {s x : ℤ → K} {u u' : ℕ → K} (h : ICSolved R.f roots u s x)
    (h' : ICSolved R.f roots u' s x) : ∀ i < R.k, u i = u' i := by
  have hord : numUnknowns roots = R.k := order_eq hr
  have combo_sub : ∀ (u v : ℕ → K) (l : List (ℤ → K)) (h : ℕ) (n : ℤ),
      combo (fun i => u i - v i) l h n = combo u l h n - combo v l h n := by
    intro u v l h n
    induction l generalizing h with
    | nil => simp [combo]
    | cons b l ih => simp only [combo, List.zipIdx_cons, List.map_cons, List.sum_cons] at ih ⊢; rw [ih]; ring
  have h1 : ∀ n, combo (fun i => u i - u' i) (homBasis roots) 0 n = 0 := by
    refine hom_zero_of_init hk ha (combo_hom _ _ (homBasis_hom hr hk ha) 0) (R.f : ℤ) ?_
    intro i hi
    have e := h i (by rw [hord]; exact hi)
    have e' := h' i (by rw [hord]; exact hi)
    unfold generalSolution at e e'
    rw [generalHom_eq] at e e'
    rw [combo_sub]
    linear_combination e' - e
  have h2 := polyExp_indep (blocks (fun i => u i - u' i) roots 0) (by rw [blocks_fst]; exact hnd)
    (by
      intro b hb
      have : b.1 ∈ (blocks (fun i => u i - u' i) roots 0).map Prod.fst := List.mem_map.mpr ⟨b, hb, rfl⟩
      rw [blocks_fst, List.mem_map] at this
      obtain ⟨r, hr1, e⟩ := this
      rw [← e]
      exact root_ne_zero hr hk ha hr1 (hm r hr1))
    (fun n => by rw [← combo_eq_blocks, h1])
  have h3 := blocks_zero (fun i => u i - u' i) roots 0 h2
  intro i hi
  have := h3 i (by rw [order_eq hr]; exact hi)
  simp only [zero_add] at this
  exact sub_eq_zero.mp this

end Purrs.Exact
