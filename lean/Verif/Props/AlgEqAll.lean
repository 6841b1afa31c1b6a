import Verif.Props.AlgEqFind
import Mathlib.FieldTheory.Perfect
import Mathlib.Algebra.Polynomial.SpecificDegree

/-!
# C62: what `find_roots` returns for a polynomial

The specification: `SplitsAs p l` (Props/AlgEqFind.lean) says that the polynomial is its leading
coefficient times the product of `X - v` over the values `v` of the list.
-/

namespace Purrs.AlgEq

open Polynomial

/-- `sqf` is a square-free decomposition of the integer polynomial `p`, as `sqrfree` of GiNaC
returns it: `p = c * f₁^m₁ * ... * f_k^m_k` with square-free non-constant integer factors. -/
def IsSqfOf (p : ℚ[X]) (sqf : List (ℚ[X] × ℕ)) : Prop :=
  (∃ c : ℚ, c ≠ 0 ∧ p = C c * (sqf.map fun f => f.1 ^ f.2).prod) ∧
  (∀ f ∈ sqf, (∃ F : ℤ[X], f.1 = ofInt F) ∧ 1 ≤ f.1.natDegree ∧ Squarefree f.1 ∧ 1 ≤ f.2)

theorem foldl_sqf {fac : ℚ[X] → List ℚ[X]} (hfac : GoodFactorizer fac) (fuel : ℕ) :
    ∀ (sqf : List (ℚ[X] × ℕ)) (roots rs : List Root),
    (∀ f ∈ sqf, (∃ F : ℤ[X], f.1 = ofInt F) ∧ 1 ≤ f.1.natDegree ∧ Squarefree f.1 ∧ 1 ≤ f.2) →
    (∀ f ∈ sqf, NoBinomialFactor f.1) →
    sqf.foldl (fun acc f => acc.bind fun rs => findRoots fac fuel f.1 rs f.2) (some roots) = some rs →
    ∃ new, rs = roots ++ new ∧ SplitsUpTo (sqf.map Prod.fst).prod new ∧
      ((∀ f ∈ sqf, f.2 = 1) → ∀ r ∈ new, r.mult = 1) := by
  intro sqf
  induction sqf with
  | nil =>
    intro roots rs _ _ h
    exact ⟨[], by simpa using h.symm, by simpa using splits_const (c := 1) one_ne_zero, by simp⟩
  | cons f l ih =>
    intro roots rs hf hb h
    rw [List.foldl_cons, Option.bind_some] at h
    obtain ⟨⟨F, hF⟩, h1, h2, h3⟩ := hf f List.mem_cons_self
    cases hr : findRoots fac fuel f.1 roots f.2 with
    | none =>
      rw [hr] at h
      exfalso
      have : ∀ l : List (ℚ[X] × ℕ),
          l.foldl (fun acc f => acc.bind fun rs => findRoots fac fuel f.1 rs f.2) none = none := by
        intro l
        induction l with
        | nil => rfl
        | cons a l ih => simpa using ih
      rw [this] at h
      exact absurd h (by simp)
    | some rs1 =>
      rw [hr] at h
      rw [hF] at hr h1 h2
      obtain ⟨n1, e1, s1, m1⟩ := findRoots_sound hfac fuel F roots rs1 f.2 h1 h2
        (hF ▸ hb f List.mem_cons_self) hr
      obtain ⟨n2, e2, s2, m2⟩ := ih rs1 rs (fun g hg => hf g (List.mem_cons_of_mem _ hg))
        (fun g hg => hb g (List.mem_cons_of_mem _ hg)) h
      refine ⟨n1 ++ n2, by rw [e2, e1, List.append_assoc], ?_, ?_⟩
      · rw [List.map_cons, List.prod_cons, hF]
        exact s1.mul s2
      · intro h0 r hr
        rcases List.mem_append.mp hr with hr | hr
        · exact m1 (h0 f List.mem_cons_self) r hr
        · exact m2 (fun g hg => h0 g (List.mem_cons_of_mem _ hg)) r hr

theorem splits_eval {p : ℚ[X]} {l : List Root} (h : SplitsUpTo p l) (z : ℂ) :
    (toC p).eval z = 0 ↔ ∃ r ∈ l, r.val = z := by
  obtain ⟨c, hc, e⟩ := h
  rw [e, eval_mul, eval_C, mul_eq_zero, or_iff_right hc, eval_list_prod, List.prod_eq_zero_iff,
    List.map_map]
  simp only [List.mem_map, Function.comp_apply, eval_sub, eval_X, eval_C, sub_eq_zero]
  constructor
  · rintro ⟨r, h1, h2⟩; exact ⟨r, h1, h2.symm⟩
  · rintro ⟨r, h1, h2⟩; exact ⟨r, h1, h2.symm⟩

theorem eval_sqf {sqf : List (ℚ[X] × ℕ)} (h : ∀ f ∈ sqf, 1 ≤ f.2) (z : ℂ) :
    (toC (sqf.map fun f => f.1 ^ f.2).prod).eval z = 0 ↔
      (toC (sqf.map Prod.fst).prod).eval z = 0 := by
  induction sqf with
  | nil => simp
  | cons f l ih =>
    have h1 := h f List.mem_cons_self
    simp only [List.map_cons, List.prod_cons, toC, Polynomial.map_mul, eval_mul, mul_eq_zero,
      Polynomial.map_pow, eval_pow]
    simp only [toC] at ih
    rw [ih (fun g hg => h g (List.mem_cons_of_mem _ hg)), pow_eq_zero_iff (by omega)]

/-- **C62** (what the code guarantees).  When `find_roots` succeeds on an integer polynomial without
a factor `a x^n + k` (`n ≥ 2`), it appends to the vector, without touching the roots already there,
values that are exactly the complex roots of the polynomial; the simple roots of a square-free
polynomial are each found exactly once, with multiplicity one; and when `all_distinct` is set the
values are pairwise distinct.  Missing from the full property: binomial factors (where the values
are wrong) and multiple roots that are not rational (where the multiplicity is wrong); see the
refutations below. -/
theorem C62_find_roots_partial {fac : ℚ[X] → List ℚ[X]} (hfac : GoodFactorizer fac) (fuel : ℕ)
    {p : ℚ[X]} {sqf : List (ℚ[X] × ℕ)} (hp : IsSqfOf p sqf)
    (hb : ∀ f ∈ sqf, NoBinomialFactor f.1) {roots rs : List Root} {distinct : Bool}
    (h : findAllRoots fac fuel sqf roots = (some rs, distinct)) :
    ∃ new, rs = roots ++ new ∧
      (∀ z : ℂ, (toC p).eval z = 0 ↔ ∃ r ∈ new, r.val = z) ∧
      ((∀ f ∈ sqf, f.2 = 1) → SplitsAs p new ∧ ∀ r ∈ new, r.mult = 1) ∧
      (distinct = true → (new.map Root.val).Nodup) := by
  obtain ⟨⟨c, hc, hpe⟩, hf⟩ := hp
  unfold findAllRoots at h
  obtain ⟨h1, h2⟩ := Prod.mk.inj h
  obtain ⟨new, e, s, m⟩ := foldl_sqf hfac fuel sqf roots rs hf hb h1
  refine ⟨new, e, ?_, ?_, ?_⟩
  · intro z
    rw [← splits_eval s z, ← eval_sqf (fun f h => (hf f h).2.2.2), hpe]
    have : ((c : ℚ) : ℂ) ≠ 0 := by exact_mod_cast hc
    simp only [toC, Polynomial.map_mul, eval_mul, map_C, eval_C, mul_eq_zero]
    constructor
    · rintro (h | h)
      · exact absurd h this
      · exact h
    · exact Or.inr
  · intro h0
    refine ⟨?_, m h0⟩
    apply SplitsUpTo.exact
    have : sqf.map (fun f => f.1 ^ f.2) = sqf.map Prod.fst :=
      List.map_congr_left fun f hfm => by rw [h0 f hfm, pow_one]
    rw [hpe, this]
    exact (splits_const hc).mul s
  · intro hd
    rw [hd] at h2
    obtain ⟨hl, hm⟩ := of_decide_eq_true h2
    obtain ⟨f, rfl⟩ := List.length_eq_one_iff.mp hl
    rw [List.map_singleton, List.prod_singleton] at s
    have hsep : (toC f.1).Separable :=
      Separable.map (PerfectField.separable_iff_squarefree.mpr (hf f List.mem_cons_self).2.2.1)
    obtain ⟨d, hd0, e'⟩ := s
    have hne : toC f.1 ≠ 0 := by
      rw [e']; exact mul_ne_zero (C_ne_zero.mpr hd0) (monic_prod new).ne_zero
    have hroots : (toC f.1).roots = ((new.map Root.val : List ℂ) : Multiset ℂ) := by
      rw [e', roots_C_mul _ hd0]
      have : (new.map fun r => (X - C r.val : ℂ[X])).prod
          = (((new.map Root.val : List ℂ) : Multiset ℂ).map fun a => X - C a).prod := by
        rw [Multiset.map_coe, Multiset.prod_coe, List.map_map]; rfl
      rw [this, roots_multiset_prod_X_sub_C]
    have := nodup_roots hsep
    rw [hroots] at this
    exact Multiset.coe_nodup.mp this

/-! ### Concrete runs -/

theorem search_none {P : ℤ[X]} (h0 : P.coeff 0 ≠ 0) (hl : |P.leadingCoeff| < 121)
    (ht : |P.coeff 0| < 121) (hs : Squarefree (ofInt P)) (hn : ∀ r : ℚ, (ofInt P).eval r ≠ 0) :
    ratSearch (ofInt P) = (ofInt P, (ofInt P).natDegree, []) := by
  obtain ⟨a1, _, a3, _, a5⟩ := C06_search h0 hl ht hs
  have hnil : (ratSearch (ofInt P)).2.2 = [] := by
    rw [List.eq_nil_iff_forall_not_mem]
    intro r hr
    exact hn r ((a5 r).mpr hr)
  rw [hnil] at a1
  simp only [List.map_nil, List.prod_nil, mul_one] at a1
  rw [← a1] at a3
  exact Prod.ext a1.symm (Prod.ext a3 hnil)

/-- The data of a quadratic `X^2 + b X + c`. -/
noncomputable def quad (b c : ℤ) : ℤ[X] := X ^ 2 + C b * X + C c

theorem quad_coeff (b c : ℤ) : (quad b c).coeff 0 = c ∧ (quad b c).coeff 1 = b ∧
    (quad b c).coeff 2 = 1 ∧ (quad b c).natDegree = 2 ∧ (quad b c).leadingCoeff = 1 := by
  have hm : (quad b c).natDegree = 2 := by unfold quad; compute_degree!
  have c0 : (quad b c).coeff 0 = c := by
    unfold quad; rw [coeff_add, coeff_add, coeff_X_pow, coeff_C_mul, coeff_X_zero, coeff_C_zero]; simp
  have c1 : (quad b c).coeff 1 = b := by
    unfold quad; rw [coeff_add, coeff_add, coeff_X_pow, coeff_C_mul, coeff_X_one, coeff_C_succ]; simp
  have c2 : (quad b c).coeff 2 = 1 := by
    unfold quad
    rw [coeff_add, coeff_add, coeff_X_pow, coeff_C_mul, coeff_X, coeff_C_succ]; simp
  exact ⟨c0, c1, c2, hm, by rw [leadingCoeff, hm, c2]⟩

theorem quadQ (b c : ℤ) : (ofInt (quad b c)).coeff 0 = c ∧ (ofInt (quad b c)).coeff 1 = b ∧
    (ofInt (quad b c)).natDegree = 2 ∧ (ofInt (quad b c)).leadingCoeff = 1 ∧
    ofInt (quad b c) ≠ 0 := by
  obtain ⟨c0, c1, c2, hd, hl⟩ := quad_coeff b c
  have hinj : Function.Injective (Int.castRingHom ℚ) := Int.cast_injective
  have hd' : (ofInt (quad b c)).natDegree = 2 := by rw [← hd]; exact natDegree_map_eq_of_injective hinj _
  refine ⟨by simp [ofInt, coeff_map, c0], by simp [ofInt, coeff_map, c1], hd', ?_, ?_⟩
  · rw [leadingCoeff_map_of_injective hinj, hl]; simp
  · intro e; rw [e] at hd'; simp at hd'

theorem quad_eval (b c : ℤ) (r : ℚ) : (ofInt (quad b c)).eval r = r ^ 2 + b * r + c := by
  simp [ofInt, quad]

/-- A quadratic without rational roots is irreducible. -/
theorem quad_irreducible {b c : ℤ} (hn : ∀ r : ℚ, r ^ 2 + b * r + c ≠ 0) :
    Irreducible (ofInt (quad b c)) := by
  rw [Polynomial.irreducible_iff_roots_eq_zero_of_degree_le_three]
  · rw [Multiset.eq_zero_iff_forall_notMem]
    intro r hr
    rw [mem_roots (quadQ b c).2.2.2.2, IsRoot, quad_eval] at hr
    exact hn r hr
  · rw [(quadQ b c).2.2.1]
  · rw [(quadQ b c).2.2.1]; omega

theorem golden (r : ℚ) : r ^ 2 + ((-1 : ℤ) : ℚ) * r + ((-1 : ℤ) : ℚ) ≠ 0 := by
  intro h
  obtain ⟨c0, _, _, hd, hl⟩ := quad_coeff (-1) (-1)
  have := C06_candidates (P := quad (-1) (-1)) (by rw [c0]; decide) (by rw [hl]; decide)
    (by rw [c0]; decide) (r := r) (by rw [quad_eval]; exact h)
  rw [hl, c0] at this
  have hc : candidates ((1 : ℤ) : ℚ) ((-1 : ℤ) : ℚ) = [1, -1] := by
    simp [candidates, show findDivisors 1 = some [1] from rfl]
  rw [hc] at this
  rcases List.mem_cons.mp this with rfl | h2
  · norm_num at h
  · rw [List.mem_singleton] at h2; subst h2; norm_num at h

theorem sqrt_two (r : ℚ) : r ^ 2 + ((0 : ℤ) : ℚ) * r + ((-2 : ℤ) : ℚ) ≠ 0 := by
  intro h
  obtain ⟨c0, _, _, hd, hl⟩ := quad_coeff 0 (-2)
  have := C06_candidates (P := quad 0 (-2)) (by rw [c0]; decide) (by rw [hl]; decide)
    (by rw [c0]; decide) (r := r) (by rw [quad_eval]; exact h)
  rw [hl, c0] at this
  have hc : candidates ((1 : ℤ) : ℚ) ((-2 : ℤ) : ℚ) = [1, -1, 2, -2] := by
    simp [candidates, show findDivisors 1 = some [1] from rfl, show findDivisors 2 = some [1, 2] by
      simp [findDivisors, findDivisorsMax, divisorsLoop]]
  rw [hc] at this
  simp only [List.mem_cons, List.not_mem_nil, or_false] at this
  rcases this with rfl | rfl | rfl | rfl <;> norm_num at h

theorem quad_trailing {b c : ℤ} (hc : c ≠ 0) :
    (ofInt (quad b c)).natTrailingDegree = 0 := by
  apply natTrailingDegree_eq_zero.mpr
  right
  rw [(quadQ b c).1]
  exact_mod_cast hc

/-- What one activation does on a quadratic without rational roots. -/
theorem quad_run (fac : ℚ[X] → List ℚ[X]) {b c : ℤ} (hc : c ≠ 0) (hc' : |c| < 121)
    (hn : ∀ r : ℚ, r ^ 2 + b * r + c ≠ 0) (mult : ℕ) :
    findRoots fac 1 (ofInt (quad b c)) [] mult =
      if b = 0 then some (solveMonomial c 2 1 [])
      else some [⟨(solve2 b c).1, false, 1⟩, ⟨(solve2 b c).2, false, 1⟩] := by
  obtain ⟨c0, c1, hd, hl, hne⟩ := quadQ b c
  have hz : zeroRoots (ofInt (quad b c)) mult = [] := by
    unfold zeroRoots; rw [quad_trailing hc]; rfl
  have hq : dropZero (ofInt (quad b c)) = ofInt (quad b c) := by
    unfold dropZero; rw [quad_trailing hc]; rfl
  have hsq : Squarefree (ofInt (quad b c)) := (quad_irreducible hn).squarefree
  have hsm : |(ofInt (quad b c)).leadingCoeff| < 121 ∧ |(ofInt (quad b c)).coeff 0| < 121 := by
    rw [hl, c0]
    refine ⟨by norm_num, ?_⟩
    rw [← Int.cast_abs]; exact_mod_cast hc'
  have hse := search_none (P := quad b c) (by rw [(quad_coeff b c).1]; exact hc)
    (by rw [(quad_coeff b c).2.2.2.2]; decide) (by rw [(quad_coeff b c).1]; exact hc') hsq
    (fun r => by rw [quad_eval]; exact hn r)
  have hbin : isBinomial (ofInt (quad b c)) ↔ b = 0 := by
    unfold isBinomial
    rw [c0, hd]
    constructor
    · rintro ⟨_, h⟩
      have := h 1 (le_refl _) (by omega)
      rw [c1] at this; exact_mod_cast this
    · intro h
      refine ⟨by exact_mod_cast hc, ?_⟩
      intro d h1 h2
      have : d = 1 := by omega
      rw [this, c1, h]; rfl
  rw [findRoots, findStep]
  dsimp only
  rw [hq, hz, if_neg (by rw [hd]; simp), if_neg (by rw [hd]; simp), if_pos hsm, hse]
  simp only [ratRoots, List.append_nil]
  rw [if_neg (by rw [hd]; simp)]
  by_cases hb : b = 0
  · rw [if_pos ⟨hsm, hbin.mpr hb⟩, if_pos hb, c0, hl, hd]
    rfl
  · rw [if_neg (fun h => hb (hbin.mp h.2)), if_pos (by rw [hd]; omega), if_neg hb]
    unfold directRoots
    simp only [hd, c0, c1, hl, List.nil_append, div_one]
    simp

theorem golden_noBinomial : NoBinomialFactor (ofInt (quad (-1) (-1))) := by
  intro d hd h2 hb
  have hirr := quad_irreducible golden
  obtain ⟨c0, c1, hdeg, hl, hne⟩ := quadQ (-1) (-1)
  obtain ⟨e, he⟩ := hd
  rcases hirr.isUnit_or_isUnit he with hu | hu
  · have := natDegree_eq_zero_of_isUnit hu; omega
  · have he0 := natDegree_eq_zero_of_isUnit hu
    have hdd : d.natDegree = 2 := by
      have h3 : d ≠ 0 := fun h => by rw [h] at h2; simp at h2
      have := natDegree_mul h3 hu.ne_zero
      rw [← he, hdeg, he0] at this; omega
    have h1 := hb.2 1 (le_refl _) (by omega)
    rw [eq_C_of_natDegree_eq_zero he0] at he
    rw [he, coeff_mul_C, h1] at c1
    norm_num at c1

/-- The trivial factoriser meets the assumption: it never splits. -/
theorem fac_single : GoodFactorizer (fun p => [p]) := by
  intro Q _ h
  exact absurd h (by simp)

/-- The hypotheses of `C62_find_roots_partial` are met by `x^2 - x - 1`, for which the call
succeeds. -/
example : ∃ rs d, IsSqfOf (ofInt (quad (-1) (-1))) [(ofInt (quad (-1) (-1)), 1)] ∧
    NoBinomialFactor (ofInt (quad (-1) (-1))) ∧ GoodFactorizer (fun p => [p]) ∧
    findAllRoots (fun p => [p]) 1 [(ofInt (quad (-1) (-1)), 1)] [] = (some rs, d) ∧
    rs.length = 2 ∧ d = true := by
  refine ⟨[⟨(solve2 ((-1 : ℤ) : ℂ) ((-1 : ℤ) : ℂ)).1, false, 1⟩,
      ⟨(solve2 ((-1 : ℤ) : ℂ) ((-1 : ℤ) : ℂ)).2, false, 1⟩], true, ⟨⟨1, one_ne_zero, by simp⟩, ?_⟩, golden_noBinomial, fac_single, ?_, ?_, rfl⟩
  · intro f hf
    rw [List.mem_singleton] at hf
    subst hf
    exact ⟨⟨_, rfl⟩, by rw [(quadQ _ _).2.2.1]; omega, (quad_irreducible golden).squarefree, le_refl _⟩
  · unfold findAllRoots
    simp only [List.foldl_cons, List.foldl_nil, Option.bind_some]
    rw [quad_run _ (by decide) (by decide) golden, if_neg (by decide)]
    simp
  · simp

/-- The full property fails for the multiplicity: for `(x^2 - x - 1)^2` both roots are returned with
multiplicity one, while each is a double root. -/
theorem C62_multiplicity_refuted : ∃ (p : ℚ[X]) (sqf : List (ℚ[X] × ℕ)) (rs : List Root),
    IsSqfOf p sqf ∧ findAllRoots (fun p => [p]) 1 sqf [] = (some rs, false) ∧
    (rs.map Root.mult).sum ≠ p.natDegree ∧ ∃ r ∈ rs, (X - C r.val) ^ (r.mult + 1) ∣ toC p := by
  refine ⟨ofInt (quad (-1) (-1)) ^ 2, [(ofInt (quad (-1) (-1)), 2)],
    [⟨(solve2 ((-1 : ℤ) : ℂ) ((-1 : ℤ) : ℂ)).1, false, 1⟩,
      ⟨(solve2 ((-1 : ℤ) : ℂ) ((-1 : ℤ) : ℂ)).2, false, 1⟩], ⟨⟨1, one_ne_zero, by simp⟩, ?_⟩, ?_, ?_, ?_⟩
  · intro f hf
    rw [List.mem_singleton] at hf
    subst hf
    exact ⟨⟨_, rfl⟩, by rw [(quadQ _ _).2.2.1]; omega, (quad_irreducible golden).squarefree, by simp⟩
  · unfold findAllRoots
    simp only [List.foldl_cons, List.foldl_nil, Option.bind_some]
    rw [quad_run _ (by decide) (by decide) golden, if_neg (by decide)]
    simp
  · rw [natDegree_pow, (quadQ _ _).2.2.1]; simp
  · refine ⟨_, List.mem_cons_self, ?_⟩
    have h := C07_quadratic ((-1 : ℤ) : ℂ) ((-1 : ℤ) : ℂ)
    have hq : toC (ofInt (quad (-1) (-1))) = (X - C (solve2 ((-1 : ℤ) : ℂ) ((-1 : ℤ) : ℂ)).1)
        * (X - C (solve2 ((-1 : ℤ) : ℂ) ((-1 : ℤ) : ℂ)).2) := by
      rw [h]
      simp [toC, ofInt, quad]
    rw [toC, Polynomial.map_pow, ← toC, hq, mul_pow]
    exact dvd_mul_right _ _

/-- The full property fails for binomials: for `x^2 - 2` the function succeeds and returns the
square roots of `1/2`. -/
theorem C62_binomial_refuted : ∃ (p : ℚ[X]) (rs : List Root),
    IsSqfOf p [(p, 1)] ∧ findAllRoots (fun p => [p]) 1 [(p, 1)] [] = (some rs, true) ∧
    ∃ r ∈ rs, (toC p).eval r.val ≠ 0 := by
  refine ⟨ofInt (quad 0 (-2)), solveMonomial ((-2 : ℤ) : ℚ) 2 1 [], ⟨⟨1, one_ne_zero, by simp⟩, ?_⟩, ?_,
    ⟨((-1 / ((-2 : ℤ) : ℚ) : ℚ) : ℂ) ^ (((1 : ℚ) / (2 : ℕ) : ℚ) : ℂ) * rootOfUnity 2 0, false, 1⟩, ?_, ?_⟩
  · intro f hf
    rw [List.mem_singleton] at hf
    subst hf
    exact ⟨⟨_, rfl⟩, by rw [(quadQ _ _).2.2.1]; omega, (quad_irreducible sqrt_two).squarefree, le_refl _⟩
  · unfold findAllRoots
    simp only [List.foldl_cons, List.foldl_nil, Option.bind_some]
    rw [quad_run _ (by decide) (by decide) sqrt_two, if_pos rfl]
    simp
  · simp [solveMonomial, List.range_succ]
  · have hval := val_pow (n := 2) (by norm_num) ((-1 / ((-2 : ℤ) : ℚ) : ℚ) : ℂ) 0
    simp only at hval ⊢
    have : toC (ofInt (quad 0 (-2))) = X ^ 2 - C 2 := by
      simp [toC, ofInt, quad, ← sub_eq_add_neg]
      exact (map_ofNat C 2).symm
    rw [this, eval_sub, eval_pow, eval_X, eval_C, hval]
    norm_num

end Purrs.AlgEq
