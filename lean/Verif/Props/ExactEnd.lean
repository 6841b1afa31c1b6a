import Verif.Props.ExactMore
import Verif.Props.ExactComplete
import Verif.Props.AlgEqMult

/-!
# C64: the solver of linear recurrences with constant coefficients, end to end

From the coefficients of the recurrence to the solution: `build_characteristic_equation`,
`find_roots`, and the new method.
-/

set_option linter.unusedSectionVars false

namespace Purrs.Exact

open Finset Polynomial Purrs.AlgEq
open scoped Classical

/-- The recurrence `x(n) = co[1] x(n-1) + ... + co[k] x(n-k) + p(n)` over the complex numbers. -/
noncomputable def recC (co : List ℚ) (p : ℤ → ℂ) (f : ℕ) : LinRec ℂ :=
  ⟨co.length - 1, fun j => ((co.getD j 0 : ℚ) : ℂ), p, f⟩

/-- The roots with their multiplicities, as handed from `find_roots` to the method. -/
def rootPairs (rs : List Root) : List (ℂ × ℕ) := rs.map fun r => (r.val, r.mult)

theorem charPoly_recC (co : List ℚ) (p : ℤ → ℂ) (f : ℕ) :
    charPoly (recC co p f) = toC (charPoly (recOf co)) := by
  unfold charPoly recC recOf toC
  simp [Polynomial.map_sub, Polynomial.map_pow, Polynomial.map_sum]

/-- The roots found are those of the characteristic polynomial. -/
theorem areRoots_of_splits (co : List ℚ) (p : ℤ → ℂ) (f : ℕ) {rs : List Root}
    (h : SplitsWith (buildCharEq co) rs) : AreRoots (recC co p f) (rootPairs rs) := by
  obtain ⟨⟨l, hl, e⟩, _⟩ := C31_characteristic_equation co
  have hm := (charPoly_natDegree (recOf co)).2
  have hl0 : ((l : ℚ) : ℂ) ≠ 0 := by exact_mod_cast hl.ne'
  unfold AreRoots
  rw [charPoly_recC]
  unfold SplitsWith at h
  rw [e, leadingCoeff_mul, leadingCoeff_C, hm.leadingCoeff, mul_one, toC, Polynomial.map_mul, map_C] at h
  have := mul_left_cancel₀ (C_ne_zero.mpr hl0) h
  rw [toC, this]
  unfold rootPairs
  rw [List.map_map]
  rfl

/-- **C64** (what the code guarantees).  Take the coefficients of a linear recurrence of order `k ≥ 1` with
last coefficient different from zero, and let `find_roots` succeed on the polynomial built by
`build_characteristic_equation`, whose square-free factors are of the kind handled correctly (C62).  Then
the linear systems that the new method sets up, for the special solutions and for the unknown constants, are
solvable, and whatever solutions of them are used, the expression returned is the sequence defined by the
recurrence, for every `n` from the first valid index on.  Missing from the full property: characteristic
polynomials with a multiple irrational root, refuted below. -/
theorem C64_end_to_end_partial {fac : ℚ[X] → List ℚ[X]} (hfac : GoodFactorizer fac) (fuel : ℕ)
    (co : List ℚ) (hk : 2 ≤ co.length) (hlast : co.getD (co.length - 1) 0 ≠ 0)
    (p : ℤ → ℂ) (f : ℕ) (sqf : List (ℚ[X] × ℕ)) (hsqf : IsSqfOf (buildCharEq co) sqf)
    (hcop : Squarefree (sqf.map Prod.fst).prod) (hh : ∀ g ∈ sqf, Handled g)
    {rs : List Root} {d : Bool} (hrs : findAllRoots fac fuel sqf [] = (some rs, d)) :
    (∀ (poly : ℂ[X]) (base : ℂ), base ≠ 0 →
      ∃ c, SpecialSolved (recC co p f) poly base (baseMult (rootPairs rs) base) c) ∧
    (∀ s x : ℤ → ℂ, ∃ u, ICSolved f (rootPairs rs) u s x) ∧
    ∀ ts : List (ExpTerm ℂ), Decomposes p ts → (∀ t ∈ ts, t.base ≠ 0) →
      (∀ t ∈ ts, SpecialSolved (recC co p f) t.poly t.base (baseMult (rootPairs rs) t.base) t.c) →
      ∀ (x : ℤ → ℂ) (u : ℕ → ℂ), Solves (recC co p f) x →
        ICSolved f (rootPairs rs) u (newSpecial (rootPairs rs) ts) x →
        ∀ n : ℤ, (f : ℤ) ≤ n → newSolution (rootPairs rs) ts u n = x n := by
  obtain ⟨new, e, hs, hm, _, hnd⟩ := C62_multiplicities_partial hfac fuel hsqf hh hrs
  rw [List.nil_append] at e
  subst e
  have hr := areRoots_of_splits co p f hs
  have hk' : 1 ≤ (recC co p f).k := by show 1 ≤ co.length - 1; omega
  have ha' : (recC co p f).a (recC co p f).k ≠ 0 := by
    show ((co.getD (co.length - 1) 0 : ℚ) : ℂ) ≠ 0
    exact_mod_cast hlast
  have hm' : ∀ r ∈ rootPairs rs, 1 ≤ r.2 := by
    intro r hr
    obtain ⟨q, hq, rfl⟩ := List.mem_map.mp hr
    exact hm q hq
  have hnd' : ((rootPairs rs).map Prod.fst).Nodup := by
    have := hnd hcop
    unfold rootPairs
    rw [List.map_map]
    exact this
  refine ⟨fun poly base hb => C63_special_solvable _ _ hr hnd' poly base hb,
    fun s x => C63_constants_solvable (recC co p f) _ hk' ha' hr hm' hnd' s x, ?_⟩
  intro ts hp hb hsp x u hx hu n hn
  exact C31_new_method (recC co p f) _ hk' ha' hr ts hp hb hsp u x hu hx n hn

/-- The full property fails when the characteristic polynomial has a multiple irrational root: for
`x(n) = 2 x(n-1) + x(n-2) - 2 x(n-3) - x(n-4)` the roots of `x^2 - x - 1` are found with multiplicity one,
only two unknown constants are set up, and the system for them fixes a solution different from the sequence
already at `n = 2`. -/
theorem C64_multiplicity_refuted : ∃ (co : List ℚ) (sqf : List (ℚ[X] × ℕ)) (rs : List Root) (x : ℤ → ℂ),
    2 ≤ co.length ∧ co.getD (co.length - 1) 0 ≠ 0 ∧ IsSqfOf (buildCharEq co) sqf ∧
    findAllRoots (fun p => [p]) 1 sqf [] = (some rs, false) ∧ Solves (recC co (fun _ => 0) 0) x ∧
    Decomposes (fun _ => 0) ([] : List (ExpTerm ℂ)) ∧
    (∃ u, ICSolved 0 (rootPairs rs) u (newSpecial (rootPairs rs) []) x) ∧
    ∀ u, ICSolved 0 (rootPairs rs) u (newSpecial (rootPairs rs) []) x →
      newSolution (rootPairs rs) [] u 2 ≠ x 2 := by
  obtain ⟨a, ha⟩ : ∃ a, a = (solve2 ((-1 : ℤ) : ℂ) ((-1 : ℤ) : ℂ)).1 := ⟨_, rfl⟩
  obtain ⟨b, hb⟩ : ∃ b, b = (solve2 ((-1 : ℤ) : ℂ) ((-1 : ℤ) : ℂ)).2 := ⟨_, rfl⟩
  have hv := solve2_vieta ((-1 : ℤ) : ℂ) ((-1 : ℤ) : ℂ)
  rw [← ha, ← hb] at hv
  have hsum : a + b = 1 := by have := hv.1; push_cast at this; linear_combination this
  have hprod : a * b = -1 := by have := hv.2; push_cast at this; linear_combination this
  have ha2 : a ^ 2 = a + 1 := by linear_combination (-1) * hprod + a * hsum
  have hb2 : b ^ 2 = b + 1 := by linear_combination (-1) * hprod + b * hsum
  have ha0 : a ≠ 0 := by intro h; rw [h] at hprod; norm_num at hprod
  have hab : a ≠ b := by
    intro h
    rw [← h] at hsum hprod
    have : (a + a) ^ 2 = 1 := by rw [hsum]; ring
    have h4 : (a + a) ^ 2 = -4 := by linear_combination 4 * hprod
    rw [h4] at this
    norm_num at this
  have hchar : buildCharEq [0, 2, 1, -2, -1] = ofInt (quad (-1) (-1)) ^ 2 := by
    have h1 : ofInt (quad (-1) (-1)) = X ^ 2 - X - 1 := by
      simp [ofInt, quad]; ring
    rw [h1]
    have h2 : charDenominators [0, 2, 1, -2, -1] = [] := by
      unfold charDenominators
      simp
    unfold buildCharEq
    rw [h2]
    simp [List.range_succ]
    rw [show (C (2 : ℚ)) = 2 from map_ofNat C 2]
    ring
  refine ⟨[0, 2, 1, -2, -1], [(ofInt (quad (-1) (-1)), 2)], [⟨a, false, 1⟩, ⟨b, false, 1⟩],
    fun n => (n : ℂ) * a ^ n, by simp, by simp, ?_, ?_, ?_, ?_, ?_, ?_⟩
  · rw [hchar]
    refine ⟨⟨1, one_ne_zero, by simp⟩, ?_⟩
    intro f hf
    rw [List.mem_singleton] at hf
    subst hf
    exact ⟨⟨_, rfl⟩, by rw [(quadQ _ _).2.2.1]; omega, (quad_irreducible golden).squarefree, by simp⟩
  · unfold findAllRoots
    simp only [List.foldl_cons, List.foldl_nil, Option.bind_some]
    rw [quad_run _ (by decide) (by decide) golden, if_neg (by decide), ← ha, ← hb]
    simp
  · intro n hn
    simp only [recC, sum_range_succ, List.length_cons, List.length_nil, range_zero, sum_empty]
    have hz : ∀ i : ℤ, a ^ (n - i) = a ^ (n - 4) * a ^ (4 - i) := by
      intro i; rw [← zpow_add₀ ha0]; congr 1; ring
    have h0 : a ^ n = a ^ (n - 4) * a ^ 4 := by
      have := hz 0; simpa using this
    have a4 : a ^ 4 = 3 * a + 2 := by linear_combination (a^2 + a + 2) * ha2
    have a3 : a ^ 3 = 2 * a + 1 := by linear_combination (a + 1) * ha2
    have e1 : a ^ (n - 1) = a ^ (n - 4) * a ^ 3 := by rw [hz 1]; norm_num
    have e2 : a ^ (n - 2) = a ^ (n - 4) * a ^ 2 := by rw [hz 2]; norm_num
    have e3 : a ^ (n - 3) = a ^ (n - 4) * a := by rw [hz 3]; norm_num
    norm_num
    rw [h0, e1, e2, e3, a4, a3, ha2]
    ring
  · intro n; simp
  · refine ⟨fun i => if i = 0 then a / (a - b) else - (a / (a - b)), ?_⟩
    have hsub : a - b ≠ 0 := sub_ne_zero.mpr hab
    intro i hi
    have hi' : i < 2 := by simpa [numUnknowns, rootPairs] using hi
    interval_cases i
    · simp [generalSolution, generalHom, rootPairs, newSpecial, List.range_succ]
    · simp [generalSolution, generalHom, rootPairs, newSpecial, List.range_succ]
      field_simp
      ring
  · intro u hu hcon
    have e0 := hu 0 (by simp [numUnknowns, rootPairs])
    have e1 := hu 1 (by simp [numUnknowns, rootPairs])
    simp [newSolution, generalSolution, generalHom, rootPairs, newSpecial, List.range_succ] at e0 e1 hcon
    norm_cast at hcon
    rw [ha2, hb2] at hcon
    have h1 : a = 2 * (a + 1) := by linear_combination hcon + e1 + e0
    have h2 : a = -2 := by linear_combination -h1
    rw [h2] at ha2
    norm_num at ha2

/-! ### The hypotheses are met -/

theorem constC2 : (C (2 : ℚ)) = 2 := map_ofNat C 2
theorem constC3 : (C (3 : ℚ)) = 3 := map_ofNat C 3
theorem constC4 : (C (4 : ℚ)) = 4 := map_ofNat C 4
theorem constC5 : (C (5 : ℚ)) = 5 := map_ofNat C 5
theorem constC6 : (C (6 : ℚ)) = 6 := map_ofNat C 6

/-- `x(n) = 5 x(n-1) - 6 x(n-2)`: the hypotheses of `C31_old_method`, `C31_old_method_order2` and
`C31_new_method`, with the sequence `2^n`. -/
example : ∃ R : LinRec ℚ, R.k = 2 ∧ R.a 2 ≠ 0 ∧ AreRoots R [(2, 1), (3, 1)] ∧
    SysSolved true R [(2, 1), (3, 1)] (fun i => if i = 0 then -2 else 3) ∧
    Solves R (fun n => (2 : ℚ) ^ n) ∧ Decomposes R.p [] ∧
    ICSolved R.f [((2 : ℚ), 1), (3, 1)] (fun i => if i = 0 then 1 else 0)
      (newSpecial [((2 : ℚ), 1), (3, 1)] []) (fun n => (2 : ℚ) ^ n) := by
  refine ⟨⟨2, fun j => [0, 5, -6].getD j 0, fun _ => 0, 0⟩, rfl, by norm_num, ?_, ?_, ?_, ?_, ?_⟩
  · unfold AreRoots charPoly
    simp [sum_range_succ, constC2, constC3, constC5, constC6]
    ring
  · intro h hh
    replace hh : h < 2 := hh
    interval_cases h
    · simp [sysRow, sysRhs, List.range_succ]; norm_num
    · simp [sysRow, sysRhs, List.range_succ]; norm_num
  · intro n _
    simp only [sum_range_succ, range_zero, sum_empty]
    have e1 : (2 : ℚ) ^ (n - 1) = 2 ^ (n - 2) * 2 := by
      rw [← zpow_add_one₀ (by norm_num)]; congr 1; ring
    have e0 : (2 : ℚ) ^ n = 2 ^ (n - 2) * 2 * 2 := by
      rw [← zpow_add_one₀ (by norm_num), ← zpow_add_one₀ (by norm_num)]; congr 1; ring
    norm_num
    rw [e0, e1]
    ring
  · intro n; simp
  · intro i hi
    have hi' : i < 2 := by simpa [numUnknowns] using hi
    interval_cases i
    · simp [generalSolution, generalHom, newSpecial, List.range_succ]
    · simp [generalSolution, generalHom, newSpecial, List.range_succ]

/-- `x(n) = 4 x(n-1) - 4 x(n-2) + 2^n`, with a double root that is also the base of the inhomogeneous
term: the hypotheses of `C31_old_method` and `C31_special_solution`, the latter with the special solution
`(n^2/2) 2^n`. -/
example : ∃ R : LinRec ℚ, R.k = 2 ∧ R.a 2 ≠ 0 ∧ AreRoots R [(2, 2)] ∧
    SysSolved false R [(2, 2)] (fun _ => 1) ∧ baseMult [((2 : ℚ), 2)] 2 = 2 ∧
    SpecialSolved R 1 2 2 (fun i => if i = 2 then 1 / 2 else 0) := by
  refine ⟨⟨2, fun j => [0, 4, -4].getD j 0, fun n => 2 ^ n, 0⟩, rfl, by norm_num, ?_, ?_, ?_, ?_⟩
  · unfold AreRoots charPoly
    simp [sum_range_succ, constC2, constC4]
    ring
  · intro h hh
    replace hh : h < 2 := hh
    interval_cases h
    · simp [sysRow, sysRhs, List.range_succ]
    · simp [sysRow, sysRhs, List.range_succ]; norm_num
  · simp [baseMult]
  · intro i _
    have : specialDiff (fun j => [0, 4, -4].getD j 0) 2 (1 : ℚ[X]) 2
        (specialPoly (fun i => if i = 2 then 1 / 2 else 0) (natDegree (1 : ℚ[X]) + 2)) = 0 := by
      unfold specialDiff specialPoly
      rw [natDegree_one]
      simp only [sum_range_succ, range_zero, sum_empty]
      norm_num
      have h : (C (2⁻¹ : ℚ)) * 2 = 1 := by rw [← constC2, ← C_mul]; norm_num
      simp [constC2]
      linear_combination h
    show (specialDiff (fun j => [0, 4, -4].getD j 0) 2 (1 : ℚ[X]) 2 _).coeff i = 0
    rw [this, coeff_zero]

/-- `x(n) = n x(n-1) + 1`: the hypotheses of `C32_variable_coefficient`. -/
example : ∃ (alpha p x : ℕ → ℚ), (∀ k, 0 < k → alpha k ≠ 0) ∧
    ∀ n, 0 ≤ n → x (n + 1) = alpha (n + 1) * x n + p (n + 1) := by
  refine ⟨fun n => n, fun _ => 1, fun n => Nat.rec 0 (fun m v => ((m : ℚ) + 1) * v + 1) n, ?_, ?_⟩
  · intro k hk; simpa using hk.ne'
  · intro n _; simp

/-- `x(n) = 2 x(n-1) + n`: the hypotheses of `C31_old_method_order1`. -/
example : ∃ (x : ℕ → ℚ), ∀ n, 0 ≤ n → x (n + 1) = 2 * x n + epSum [⟨1, X, fun _ => 0⟩] (n + 1) := by
  refine ⟨fun n => 2 ^ n * 2 - n - 2, ?_⟩
  intro n _
  simp [epSum, pow_succ]
  ring

end Purrs.Exact
