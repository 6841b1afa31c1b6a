import Verif.Model.Functional
import Verif.Props.BoundsMain
import Verif.Props.AlgEqAll
import Mathlib.NumberTheory.Real.Irrational

/-!
# C57, C58: the non-decreasing test and the domain of functional equations
-/

set_option linter.unusedSectionVars false

namespace Purrs.Functional

open Purrs Purrs.WeightedAvg Purrs.Bounds
open Purrs.Eliminate (eval_noSym)
open Function (update update_of_ne update_self)

/-! ## C58: the zeros of polynomials -/

theorem raise_ge (z : ℤ) (r : ℚ) : z ≤ raise z r ∧ (r : ℚ) ≤ raise z r := by
  unfold raise
  refine ⟨le_max_left _ _, ?_⟩
  exact le_trans (Int.le_ceil r) (by exact_mod_cast le_max_right _ _)

theorem fold_raise (rs : List ℚ) (z : ℤ) :
    z ≤ rs.foldr (fun r z => raise z r) z ∧ (∀ r ∈ rs, r ≤ (rs.foldr (fun r z => raise z r) z : ℤ)) ∧
    (rs.foldr (fun r z => raise z r) z = z ∨ ∃ r ∈ rs, rs.foldr (fun r z => raise z r) z = ⌈r⌉) := by
  induction rs with
  | nil => simp
  | cons r rs ih =>
    obtain ⟨i1, i2, i3⟩ := ih
    simp only [List.foldr_cons]
    have h := raise_ge (rs.foldr (fun r z => raise z r) z) r
    refine ⟨le_trans i1 h.1, ?_, ?_⟩
    · intro q hq
      rcases List.mem_cons.1 hq with rfl | hq
      · exact h.2
      · exact le_trans (i2 q hq) (by exact_mod_cast h.1)
    · by_cases hc : ⌈r⌉ ≤ rs.foldr (fun r z => raise z r) z
      · have e : raise (rs.foldr (fun r z => raise z r) z) r = rs.foldr (fun r z => raise z r) z := max_eq_left hc
        rw [e]
        rcases i3 with i3 | ⟨q, hq, i3⟩
        · exact Or.inl i3
        · exact Or.inr ⟨q, List.mem_cons_of_mem _ hq, i3⟩
      · exact Or.inr ⟨r, List.mem_cons_self, max_eq_right (le_of_not_ge hc)⟩

/-- `roots` lists all the natural zeros of `e`. -/
def FindsZeros (ξ : ℝ → ℝ) (ρ : String → ℝ) (x : String) (E : Env) (e : Expr) : Prop :=
  ∃ rs, E.roots e = some rs ∧ ∀ m : ℕ, val ξ ρ x e m = 0 → (m : ℚ) ∈ rs

/-- **C58** (partial: on the condition that the search of the roots succeeds and recognises the integers among them; it is
refuted without by `C58_roots_refuted`).  For a polynomial with rational coefficients the index that is found is not smaller
than the given one, no natural number beyond it is a zero, and it is not greater than necessary: it is the given one or
a root rounded up. -/
theorem C58_polynomial_partial (ξ : ℝ → ℝ) (ρ : String → ℝ) (x : String) (E : Env) (fuel : ℕ) (e : Expr) (z : ℤ)
    (hx : has (.sym x) e = true) (hp : isPolynomial x e = true) (hr : isRatPolynomial x e = true)
    (hz : FindsZeros ξ ρ x E e) :
    (exDom E x (fuel + 1) e z).1 = true ∧ z ≤ (exDom E x (fuel + 1) e z).2 ∧
    (∀ m : ℕ, (exDom E x (fuel + 1) e z).2 < m → val ξ ρ x e m ≠ 0) ∧
    ((exDom E x (fuel + 1) e z).2 = z ∨ ∃ rs, E.roots e = some rs ∧ ∃ r ∈ rs, (exDom E x (fuel + 1) e z).2 = ⌈r⌉) := by
  obtain ⟨rs, h1, h2⟩ := hz
  have he : exDom E x (fuel + 1) e z = (true, rs.foldr (fun r z => raise z r) z) := by
    simp [exDom, hx, hp, polyDom, hr, h1]
  rw [he]
  obtain ⟨f1, f2, f3⟩ := fold_raise rs z
  refine ⟨rfl, f1, fun m hm h0 => ?_, ?_⟩
  · have := f2 _ (h2 m h0)
    have : (m : ℤ) ≤ rs.foldr (fun r z => raise z r) z := by exact_mod_cast this
    simp only at hm
    omega
  · rcases f3 with f3 | ⟨r, hr, f3⟩
    · exact Or.inl f3
    · exact Or.inr ⟨rs, h1, r, hr, f3⟩

/-- The answer never lowers the index. -/
theorem C58_monotone (E : Env) (x : String) (fuel : ℕ) : ∀ (e : Expr) (z : ℤ), z ≤ (exDom E x fuel e z).2 := by
  induction fuel with
  | zero => intro e z; simp [exDom]
  | succ f ih =>
    intro e z
    have hloop : ∀ (l : List Expr) (z : ℤ), z ≤ (loopDom (exDom E x f) l z).2 := by
      intro l z
      unfold loopDom
      induction l with
      | nil => simp
      | cons a l ihl =>
        simp only [List.foldr_cons]
        split_ifs
        · exact le_trans ihl (ih _ _)
        · exact ihl
    have hboth : ∀ (e : Expr) (z : ℤ), z ≤ (bothDom E (exDom E x f) e z).2 := by
      intro e z
      unfold bothDom
      split_ifs
      · exact le_trans (ih _ _) (ih _ _)
      · exact ih _ _
    simp only [exDom]
    split_ifs
    · simp only
      unfold polyDom
      split_ifs
      · split
        · exact (fold_raise _ _).1
        · exact le_refl _
      · exact le_refl _
    · unfold otherDom
      split
      · exact hloop _ _
      · exact hloop _ _
      · unfold logDom
        split_ifs
        · exact ih _ _
        · split
          · exact le_trans (ih _ _) (le_max_left _ _)
          · exact le_refl _
      · split_ifs
        · exact ih _ _
        · exact le_refl _
      · unfold powDom
        split
        · split_ifs
          · exact le_refl _
          · exact hboth _ _
        · exact hboth _ _
      · exact le_refl _
    · exact le_refl _

/-- The whole search: beyond the index neither the numerator nor the denominator, when they are polynomials as above, has
a natural zero. -/
theorem C58_fraction_partial (ξ : ℝ → ℝ) (ρ : String → ℝ) (x : String) (E : Env) (fuel : ℕ) (e : Expr) (z : ℤ)
    (h : ∀ p, p = E.num e ∨ p = E.den e → (has (.sym x) p = false ∧ eval (realInterp ξ) ρ p ≠ 0) ∨
      (has (.sym x) p = true ∧ isPolynomial x p = true ∧ isRatPolynomial x p = true ∧ FindsZeros ξ ρ x E p)) :
    (findDomain E x (fuel + 1) e z).1 = true ∧ z ≤ (findDomain E x (fuel + 1) e z).2 ∧
    ∀ m : ℕ, (findDomain E x (fuel + 1) e z).2 < m → val ξ ρ x (E.num e) m ≠ 0 ∧ val ξ ρ x (E.den e) m ≠ 0 := by
  have key : ∀ p z, (p = E.num e ∨ p = E.den e) → (exDom E x (fuel + 1) p z).1 = true ∧
      ∀ m : ℕ, (exDom E x (fuel + 1) p z).2 < m → val ξ ρ x p m ≠ 0 := by
    intro p z hp
    rcases h p hp with ⟨h1, h2⟩ | ⟨h1, h2, h3, h4⟩
    · refine ⟨by simp [exDom, h1], fun m _ => ?_⟩
      rw [val_noSym h1]; exact h2
    · obtain ⟨k1, _, k3, _⟩ := C58_polynomial_partial ξ ρ x E fuel p z h1 h2 h3 h4
      exact ⟨k1, k3⟩
  obtain ⟨n1, n2⟩ := key (E.num e) z (Or.inl rfl)
  obtain ⟨d1, d2⟩ := key (E.den e) (exDom E x (fuel + 1) (E.num e) z).2 (Or.inr rfl)
  unfold findDomain bothDom
  rw [if_pos n1]
  have m1 := C58_monotone E x (fuel + 1) (E.num e) z
  have m2 := C58_monotone E x (fuel + 1) (E.den e) (exDom E x (fuel + 1) (E.num e) z).2
  exact ⟨d1, le_trans m1 m2, fun m hm => ⟨n2 m (lt_of_le_of_lt m2 hm), d2 m hm⟩⟩

/-! ### Together with the search of the roots -/

open Polynomial in
/-- If the roots are those that `find_roots` returns for a polynomial with the values of `e`, free from binomial factors,
and if the numbers among them are recognised, then all natural zeros are found. -/
theorem C58_find_roots {fac : ℚ[X] → List ℚ[X]} (hfac : AlgEq.GoodFactorizer fac) (fuel : ℕ)
    {p : ℚ[X]} {sqf : List (ℚ[X] × ℕ)} (hp : AlgEq.IsSqfOf p sqf)
    (hb : ∀ f ∈ sqf, AlgEq.NoBinomialFactor f.1) {found : List AlgEq.Root} {distinct : Bool}
    (hf : AlgEq.findAllRoots fac fuel sqf [] = (some found, distinct))
    {ξ : ℝ → ℝ} {ρ : String → ℝ} {x : String} {E : Env} {e : Expr}
    (hval : ∀ m : ℕ, val ξ ρ x e m = ((p.eval (m : ℚ) : ℚ) : ℝ)) {rs : List ℚ} (hrs : E.roots e = some rs)
    (hrec : ∀ m : ℕ, (∃ r ∈ found, r.val = (m : ℂ)) → (m : ℚ) ∈ rs) : FindsZeros ξ ρ x E e := by
  obtain ⟨new, e1, e2, _⟩ := AlgEq.C62_find_roots_partial hfac fuel hp hb hf
  refine ⟨rs, hrs, fun m hm => hrec m ?_⟩
  rw [hval] at hm
  have hm : p.eval (m : ℚ) = 0 := by exact_mod_cast hm
  have : (AlgEq.toC p).eval (m : ℂ) = 0 := by
    rw [AlgEq.toC, Polynomial.eval_map, Polynomial.eval₂_at_natCast, hm, map_zero]
  obtain ⟨r, hr, hv⟩ := (e2 m).1 this
  exact ⟨r, by rw [e1]; simpa using hr, hv⟩

/-! ### What goes wrong otherwise -/

section
open Polynomial AlgEq

/-- The search fails on a polynomial of degree five or more with a large constant coefficient, a linear term, and no
factorization. -/
theorem findRoots_gives_up (fac : ℚ[X] → List ℚ[X]) (fuel : ℕ) {p : ℚ[X]} (roots : List AlgEq.Root) (mult : ℕ)
    (h5 : 5 ≤ p.natDegree) (h0 : 121 ≤ |p.coeff 0|) (h1 : p.coeff 1 ≠ 0)
    (hf : (fac p).length ≤ 1 ∨ ∃ f q, fac p = [f, q] ∧ findRoots fac (fuel - 1) q roots 1 = none) :
    findRoots fac fuel p roots mult = none := by
  cases fuel with
  | zero => rfl
  | succ fuel =>
    have c0 : p.coeff 0 ≠ 0 := by intro h; rw [h] at h0; norm_num at h0
    have ht : p.natTrailingDegree = 0 := natTrailingDegree_eq_zero.2 (Or.inr c0)
    have hs : ¬ (|p.leadingCoeff| < 121 ∧ |p.coeff 0| < 121) := fun h => absurd h.2 (not_lt.2 h0)
    have hd : dropZero p = p := by simp [dropZero, ht]
    have hz : roots ++ zeroRoots p mult = roots := by simp [zeroRoots, ht]
    have hn : (isNested p).1 = 1 := by
      unfold isNested
      rw [if_neg (by omega), if_pos h1]
    simp only [findRoots, findStep, hd, hz, ht, if_neg hs, hn]
    have e0 : ¬ ((0 : ℕ) = 1 ∧ p.natDegree = 0) := by omega
    have e1 : ¬ p.natDegree = 1 := by omega
    have e2 : ¬ p.natDegree ≤ 4 := by omega
    rw [if_neg e0, if_neg e1, if_neg (fun h => hs h.1),
      if_neg (fun h => hs (by have := h.1; rwa [hd] at this)), if_neg e2]
    simp only [ratRoots]
    rcases hf with hf | ⟨f, q, hf, hq⟩
    · rw [if_neg (by omega), if_neg (by omega)]
    · rw [if_neg (by omega), hf]
      simp only [List.length_cons, List.length_nil, List.foldr_cons, List.foldr_nil]
      rw [if_pos (by norm_num)]
      simp only [Option.bind_some]
      rw [Nat.add_sub_cancel] at hq
      change ((findRoots fac fuel q (roots ++ []) 1).bind _) = none
      rw [List.append_nil, hq]; rfl

/-- `X⁵ - X - 199` (irreducible: it is so modulo 5). -/
noncomputable def quintic : ℚ[X] := X ^ 5 - X - C 199

/-- `(X - 7) (X⁵ - X - 199)`. -/
noncomputable def sexticPoly : ℚ[X] := X ^ 6 - C 7 * X ^ 5 - X ^ 2 - C 192 * X + C 1393

theorem sexticPoly_eq : sexticPoly = (X - C 7) * quintic := by
  unfold sexticPoly quintic
  have h : (C 192 : ℚ[X]) = C 199 - C 7 := by rw [← C_sub]; norm_num
  have h' : (C 1393 : ℚ[X]) = C 7 * C 199 := by rw [← C_mul]; norm_num
  rw [h, h']; ring

/-- `(n - 7) (n⁵ - n - 199)`, expanded. -/
def sextic (x : String) : Expr :=
  .add [.pow (.sym x) (.num 6), .mul [.num (-7), .pow (.sym x) (.num 5)], .mul [.num (-1), .pow (.sym x) (.num 2)],
    .mul [.num (-192), .sym x], .num 1393]

theorem quintic_deg : quintic.natDegree = 5 := by unfold quintic; compute_degree!

theorem sexticPoly_deg : sexticPoly.natDegree = 6 := by unfold sexticPoly; compute_degree!

theorem val_pow_nat (ξ : ℝ → ℝ) (ρ : String → ℝ) (x : String) (k m : ℕ) :
    val ξ ρ x (.pow (.sym x) (.num k)) m = (m : ℝ) ^ k := by
  simp only [val, eval, realInterp, update_self, Rat.cast_natCast, Real.rpow_natCast]

/-- The claim fails as soon as the search of the roots gives up: `(n - 7) (n⁵ - n - 199)` has the zero 7, but already when
the irreducible `X⁵ - X - 199` is not factored the search returns nothing, and then the index is left as it is, with a
positive answer. -/
theorem C58_roots_refuted (fac : ℚ[X] → List ℚ[X]) (h6 : fac sexticPoly = [X - C 7, quintic]) (h5 : fac quintic = [quintic])
    (ξ : ℝ → ℝ) (ρ : String → ℝ) (x : String) :
    (∀ m : ℕ, val ξ ρ x (sextic x) m = ((sexticPoly.eval (m : ℚ) : ℚ) : ℝ)) ∧
    (∀ fuel, (findAllRoots fac fuel [(sexticPoly, 1)] []).1 = none) ∧
    (∀ (E : Env) (fuel : ℕ) (z : ℤ), E.roots (sextic x) = none → exDom E x (fuel + 1) (sextic x) z = (true, z)) ∧
    val ξ ρ x (sextic x) 7 = 0 := by
  have hv : ∀ m : ℕ, val ξ ρ x (sextic x) m = ((sexticPoly.eval (m : ℚ) : ℚ) : ℝ) := by
    intro m
    have e6 := val_pow_nat ξ ρ x 6 m
    have e5 := val_pow_nat ξ ρ x 5 m
    have e2 := val_pow_nat ξ ρ x 2 m
    unfold val at e6 e5 e2 ⊢
    simp only [eval, sextic, List.map_cons, List.map_nil, List.sum_cons, List.sum_nil, List.prod_cons, List.prod_nil,
      update_self] at e6 e5 e2 ⊢
    norm_num only [Nat.cast_ofNat] at e6 e5 e2 ⊢
    rw [e6, e5, e2]
    simp only [sexticPoly, eval_add, eval_sub, eval_mul, eval_pow, eval_X, eval_C]
    push_cast
    ring
  refine ⟨hv, fun fuel => ?_, fun E fuel z hE => ?_, ?_⟩
  · simp only [findAllRoots, List.foldl_cons, List.foldl_nil, Option.bind_some]
    refine findRoots_gives_up fac fuel [] 1 (by rw [sexticPoly_deg]; norm_num) ?_ ?_ (Or.inr ⟨_, _, h6, ?_⟩)
    · simp [sexticPoly, coeff_X]; norm_num
    · simp [sexticPoly, coeff_X_pow, coeff_C]
    · refine findRoots_gives_up fac _ [] 1 (by rw [quintic_deg]) ?_ ?_ (Or.inl (by rw [h5]; rfl))
      · simp [quintic, coeff_X]; norm_num
      · simp [quintic, coeff_X, coeff_X_pow]
  · have i1 : has (.sym x) (sextic x) = true := by simp [sextic, has]
    have i2 : isPolynomial x (sextic x) = true := by simp [sextic, isPolynomial, isScalarRep, isPosInt]
    simp only [exDom, i1, i2, if_true, polyDom, hE]
    simp
  · rw [show (7 : ℕ) = ((7 : ℕ)) from rfl, hv]
    simp only [sexticPoly, eval_add, eval_sub, eval_mul, eval_pow, eval_X, eval_C]
    norm_num

/-- `n² - 2`. -/
def nSqMinus2 (x : String) : Expr := .add [.pow (.sym x) (.num 2), .num (-2)]

theorem val_nSqMinus2 (ξ : ℝ → ℝ) (ρ : String → ℝ) (x : String) (m : ℕ) :
    val ξ ρ x (nSqMinus2 x) m = (m : ℝ) ^ 2 - 2 := by
  have e2 := val_pow_nat ξ ρ x 2 m
  unfold val at e2 ⊢
  simp only [eval, nSqMinus2, List.map_cons, List.map_nil, List.sum_cons, List.sum_nil, update_self] at e2 ⊢
  norm_num only [Nat.cast_ofNat] at e2 ⊢
  rw [e2]; ring

/-- The claim fails for logarithms: for `log(n² - 2)` no root of `n² - 3` is a rational number, the index is left as it is,
with a positive answer, and at the next natural number the argument is negative. -/
theorem C58_log_refuted (ξ : ℝ → ℝ) (ρ : String → ℝ) (x : String) (E : Env) (fuel : ℕ)
    (hE : E.roots (subE (nSqMinus2 x) (.num 1)) = some []) :
    (¬ ∃ r : ℚ, r ^ 2 - 3 = 0) ∧ exDom E x (fuel + 2) (.fn .log [nSqMinus2 x]) (-1) = (true, -1) ∧
    val ξ ρ x (nSqMinus2 x) 0 < 0 ∧ val ξ ρ x (nSqMinus2 x) 1 < 0 := by
  refine ⟨?_, ?_, ?_, ?_⟩
  · rintro ⟨r, hr⟩
    have h3 : Irrational (√3) := by
      have := Nat.Prime.irrational_sqrt (p := 3) (by norm_num)
      simpa using this
    apply h3
    refine ⟨|r|, ?_⟩
    rw [eq_comm, Real.sqrt_eq_iff_mul_self_eq (by norm_num) (by positivity)]
    have hr2 : r ^ 2 = 3 := by linarith
    have : |r| * |r| = 3 := by rw [abs_mul_abs_self]; nlinarith
    exact_mod_cast this.symm
  · have i1 : has (.sym x) (.fn .log [nSqMinus2 x]) = true := by simp [nSqMinus2, has]
    have i2 : isPolynomial x (.fn .log [nSqMinus2 x]) = false := by
      simp [nSqMinus2, isPolynomial, isScalarRep]
    have i3 : isPolynomial x (nSqMinus2 x) = true := by simp [nSqMinus2, isPolynomial, isScalarRep, isPosInt]
    have i4 : has (.sym x) (subE (nSqMinus2 x) (.num 1)) = true := by simp [nSqMinus2, subE, negE, mulE, addE, has]
    have i5 : isPolynomial x (subE (nSqMinus2 x) (.num 1)) = true := by
      simp [nSqMinus2, subE, negE, mulE, addE, isPolynomial, isScalarRep, isPosInt]
    rw [exDom]
    simp only [i1, i2, if_true, otherDom, logDom, i3]
    rw [exDom]
    simp only [i4, i5, if_true, polyDom, hE]
    simp
  · rw [val_nSqMinus2]; norm_num
  · rw [val_nSqMinus2]; norm_num

/-- Both parts of `(n + 1) / (n - 3)` are within the hypotheses of `C58_fraction_partial`, and the index is 3. -/
theorem C58_nonvacuous (ξ : ℝ → ℝ) (ρ : String → ℝ) (fuel : ℕ) :
    ∃ (E : Env) (e : Expr), E.den e = .add [.sym "n", .num (-3)] ∧ E.num e = .add [.sym "n", .num 1] ∧
      FindsZeros ξ ρ "n" E (E.num e) ∧ FindsZeros ξ ρ "n" E (E.den e) ∧ findDomain E "n" (fuel + 1) e (-1) = (true, 3) := by
  refine ⟨⟨fun _ => .add [.sym "n", .num 1], fun _ => .add [.sym "n", .num (-3)],
    fun e => if e = .add [.sym "n", .num (-3)] then some [3] else some [-1]⟩, .num 0, rfl, rfl, ?_, ?_, ?_⟩
  · refine ⟨[-1], by norm_num, fun m hm => ?_⟩
    simp [val, eval] at hm
    have : (0 : ℝ) ≤ m := Nat.cast_nonneg m
    linarith
  · refine ⟨[3], by simp, fun m hm => ?_⟩
    simp [val, eval] at hm
    have : (m : ℝ) = 3 := by linarith
    have : m = 3 := by exact_mod_cast this
    simp [this]
  · simp [findDomain, bothDom, exDom, has, isPolynomial, isScalarRep, polyDom, isRatPolynomial, isRatScalarRep, raise]
    norm_num

end

end Purrs.Functional
