import Verif.Props.AlgEqRoots

/-!
# C62: the root finder returns exactly the roots
-/

namespace Purrs.AlgEq

open Polynomial

/-- Embedding of rational polynomials in complex ones. -/
noncomputable abbrev toC (p : ℚ[X]) : ℂ[X] := p.map (algebraMap ℚ ℂ)

/-- The values of the list are all the roots of `p`, with multiplicity: `p` is a constant times the
product of their linear factors. -/
def SplitsAs (p : ℚ[X]) (l : List Root) : Prop :=
  toC p = C ((p.leadingCoeff : ℚ) : ℂ) * (l.map fun r => (X - C r.val : ℂ[X])).prod

/-- No factor of `p` has the form `a x^n + k`, `n ≥ 2`. -/
def NoBinomialFactor (p : ℚ[X]) : Prop := ∀ d, d ∣ p → 2 ≤ d.natDegree → ¬ isBinomial d

/-- What is assumed of the factorisation of NTL (src/poly_factor.cc:53-91): the factors of a
square-free integer polynomial are non-constant integer polynomials whose product is, up to a
constant, the polynomial. -/
def GoodFactorizer (fac : ℚ[X] → List ℚ[X]) : Prop :=
  ∀ Q : ℤ[X], Squarefree (ofInt Q) → 1 < (fac (ofInt Q)).length →
    (∀ f ∈ fac (ofInt Q), (∃ F : ℤ[X], f = ofInt F) ∧ 1 ≤ f.natDegree) ∧
    ∃ c : ℚ, c ≠ 0 ∧ ofInt Q = C c * (fac (ofInt Q)).prod

/-! ### Splitting -/

/-- Splitting with an unspecified constant. -/
def SplitsUpTo (p : ℚ[X]) (l : List Root) : Prop :=
  ∃ c : ℂ, c ≠ 0 ∧ toC p = C c * (l.map fun r => (X - C r.val : ℂ[X])).prod

theorem monic_prod (l : List Root) : (l.map fun r => (X - C r.val : ℂ[X])).prod.Monic := by
  induction l with
  | nil => simp [monic_one]
  | cons a l ih => rw [List.map_cons, List.prod_cons]; exact (monic_X_sub_C _).mul ih

theorem SplitsUpTo.exact {p : ℚ[X]} {l : List Root} (h : SplitsUpTo p l) : SplitsAs p l := by
  obtain ⟨c, _, h2⟩ := h
  have : ((p.leadingCoeff : ℚ) : ℂ) = c := by
    have h3 : (toC p).leadingCoeff = ((p.leadingCoeff : ℚ) : ℂ) := by
      rw [leadingCoeff_map_of_injective (algebraMap ℚ ℂ).injective]; rfl
    rw [← h3, h2, leadingCoeff_mul, (monic_prod l).leadingCoeff, leadingCoeff_C, mul_one]
  unfold SplitsAs
  rw [this]; exact h2

theorem SplitsUpTo.mul {p q : ℚ[X]} {l m : List Root} (h : SplitsUpTo p l) (h' : SplitsUpTo q m) :
    SplitsUpTo (p * q) (l ++ m) := by
  obtain ⟨c, hc, e⟩ := h
  obtain ⟨d, hd, e'⟩ := h'
  refine ⟨c * d, mul_ne_zero hc hd, ?_⟩
  rw [toC, Polynomial.map_mul, ← toC, ← toC, e, e', List.map_append, List.prod_append, C_mul]
  ring

theorem SplitsUpTo.perm {p : ℚ[X]} {l m : List Root} (h : SplitsUpTo p l) (hp : l.Perm m) :
    SplitsUpTo p m := by
  obtain ⟨c, hc, e⟩ := h
  exact ⟨c, hc, by rw [e, (hp.map _).prod_eq]⟩

theorem splits_const {c : ℚ} (hc : c ≠ 0) : SplitsUpTo (C c) [] :=
  ⟨c, by exact_mod_cast hc, by simp [toC]⟩

theorem splits_X (m : ℕ) : SplitsUpTo X [⟨0, true, m⟩] := ⟨1, one_ne_zero, by simp [toC]⟩

theorem splits_linear_list (m : ℕ) (rs : List ℚ) :
    SplitsUpTo (rs.map fun r => (X - C r : ℚ[X])).prod (ratRoots m rs) := by
  unfold ratRoots
  refine ⟨1, one_ne_zero, ?_⟩
  induction rs with
  | nil => simp [toC]
  | cons a l ih =>
    simp only [List.map_cons, List.prod_cons, toC, Polynomial.map_mul] at ih ⊢
    rw [ih]
    simp

theorem splits_one {q : ℚ[X]} (hd : q.natDegree = 1) (m : ℕ) :
    SplitsUpTo q [⟨((-q.coeff 0 / q.leadingCoeff : ℚ) : ℂ), true, m⟩] := by
  have hlc : q.leadingCoeff ≠ 0 := leadingCoeff_ne_zero.mpr (fun e => by rw [e] at hd; simp at hd)
  refine ⟨(q.leadingCoeff : ℚ), by exact_mod_cast hlc, ?_⟩
  have hq : q = C (q.leadingCoeff) * (X - C (-q.coeff 0 / q.leadingCoeff)) := by
    conv_lhs => rw [eq_X_add_C_of_natDegree_le_one hd.le]
    rw [mul_sub, ← C_mul, show q.leadingCoeff * (-q.coeff 0 / q.leadingCoeff) = -q.coeff 0 by
      field_simp, show q.coeff 1 = q.leadingCoeff by rw [leadingCoeff, hd], C_neg, sub_neg_eq_add]
  conv_lhs => rw [hq]
  simp [toC]

theorem monic_form {q : ℚ[X]} {n : ℕ} (hd : q.natDegree = n) (hn : n ≠ 0) :
    toC q = C ((q.leadingCoeff : ℚ) : ℂ) *
      (X ^ n + ∑ i ∈ Finset.range n, C ((q.coeff i / q.leadingCoeff : ℚ) : ℂ) * X ^ i) ∧
      q.leadingCoeff ≠ 0 := by
  have hlc : q.leadingCoeff ≠ 0 := leadingCoeff_ne_zero.mpr
    (fun e => hn (by rw [← hd, e]; simp))
  refine ⟨?_, hlc⟩
  have hlc' : ((q.leadingCoeff : ℚ) : ℂ) ≠ 0 := by exact_mod_cast hlc
  have hq : toC q = ∑ i ∈ Finset.range (n + 1), C ((q.coeff i : ℚ) : ℂ) * X ^ i := by
    conv_lhs => rw [q.as_sum_range_C_mul_X_pow, hd]
    simp [toC, Polynomial.map_sum]
  rw [hq, Finset.sum_range_succ, mul_add, Finset.mul_sum, add_comm]
  congr 1
  · rw [leadingCoeff, hd]
  · apply Finset.sum_congr rfl
    intro i _
    rw [← mul_assoc, ← C_mul]
    congr 2
    push_cast
    field_simp

theorem splits_direct {q : ℚ[X]} {mult : ℕ} {roots rs : List Root} (h1 : q.natDegree ≠ 1)
    (h0 : q.natDegree ≠ 0) (h4 : q.natDegree ≤ 4) (h : directRoots q mult roots = some rs) :
    ∃ new, rs = roots ++ new ∧ SplitsUpTo q new ∧ ∀ r ∈ new, r.mult = 1 := by
  unfold directRoots at h
  have hcase : q.natDegree = 2 ∨ q.natDegree = 3 ∨ q.natDegree = 4 := by omega
  rcases hcase with hd | hd | hd
  · simp only [hd] at h
    refine ⟨_, (Option.some.inj h).symm, ?_, by simp⟩
    obtain ⟨e, hlc⟩ := monic_form hd (by norm_num)
    refine ⟨(q.leadingCoeff : ℚ), by exact_mod_cast hlc, ?_⟩
    rw [e]
    congr 1
    have := C07_quadratic ((q.coeff 1 / q.leadingCoeff : ℚ) : ℂ) ((q.coeff 0 / q.leadingCoeff : ℚ) : ℂ)
    simp only [List.map_cons, List.map_nil, List.prod_cons, List.prod_nil, mul_one]
    rw [this]
    simp [Finset.sum_range_succ]
    ring
  · simp only [hd] at h
    refine ⟨_, (Option.some.inj h).symm, ?_, by simp⟩
    obtain ⟨e, hlc⟩ := monic_form hd (by norm_num)
    refine ⟨(q.leadingCoeff : ℚ), by exact_mod_cast hlc, ?_⟩
    rw [e]
    congr 1
    have := C07_cubic (q.coeff 2 / q.leadingCoeff) (q.coeff 1 / q.leadingCoeff)
      (q.coeff 0 / q.leadingCoeff)
    simp only [List.map_cons, List.map_nil, List.prod_cons, List.prod_nil, mul_one]
    rw [← mul_assoc, this]
    simp [Finset.sum_range_succ]
    ring
  · simp only [hd] at h
    obtain ⟨r, hr, he⟩ := Option.map_eq_some_iff.mp h
    refine ⟨_, he.symm, ?_, by simp⟩
    obtain ⟨e, hlc⟩ := monic_form hd (by norm_num)
    refine ⟨(q.leadingCoeff : ℚ), by exact_mod_cast hlc, ?_⟩
    rw [e]
    congr 1
    have := C07_quartic hr
    simp only [List.map_cons, List.map_nil, List.prod_cons, List.prod_nil, mul_one]
    rw [← mul_assoc, ← mul_assoc, this]
    simp [Finset.sum_range_succ]
    ring

/-! ### Nested polynomials -/

theorem splits_nested {r : ℚ[X]} {n : ℕ} (hn : 0 < n) {rs : List Root} (mult : ℕ)
    (h : SplitsUpTo r rs) : SplitsUpTo (r.comp (X ^ n)) (nestedRoots n mult rs) := by
  obtain ⟨c, hc, e⟩ := h
  refine ⟨c, hc, ?_⟩
  have e1 : toC (r.comp (X ^ n)) = (toC r).comp (X ^ n) := by
    rw [toC, Polynomial.map_comp]; simp [toC]
  rw [e1, e, mul_comp, C_comp]
  congr 1
  unfold nestedRoots
  have key : ∀ js : List ℕ, ((js.flatMap fun (j : ℕ) => rs.map fun y =>
      (⟨y.val ^ (((1 : ℚ) / n : ℚ) : ℂ) * rootOfUnity n j, false, mult⟩ : Root)).map
        fun r => (X - C r.val : ℂ[X])).prod
      = (rs.map fun y => (js.map fun (j : ℕ) =>
          (X - C (y.val ^ (((1 : ℚ) / n : ℚ) : ℂ) * rootOfUnity n j) : ℂ[X])).prod).prod := by
    intro js
    induction js with
    | nil => simp
    | cons b l ih =>
      simp only [List.flatMap_cons, List.map_append, List.prod_append, ih, List.map_map,
        List.map_cons, List.prod_cons, Function.comp_def]
      rw [List.prod_map_mul]
  rw [key]
  clear e e1
  induction rs with
  | nil => simp
  | cons y l ih =>
    simp only [List.map_cons, List.prod_cons, mul_comp]
    rw [ih, ← pow_sub_prod hn]
    · simp
    · intro js
      induction js with
      | nil => simp
      | cons b l' ih' =>
        simp only [List.flatMap_cons, List.map_append, List.prod_append, ih', List.map_map,
          List.map_cons, List.prod_cons, Function.comp_def]
        rw [List.prod_map_mul]

theorem squarefree_of_comp {r : ℚ[X]} {n : ℕ} (hn : 0 < n) (h : Squarefree (r.comp (X ^ n))) :
    Squarefree r := by
  intro d hd
  have h2 : d.comp (X ^ n) * d.comp (X ^ n) ∣ r.comp (X ^ n) := by
    obtain ⟨c, hc⟩ := hd
    exact ⟨c.comp (X ^ n), by rw [hc, mul_comp, mul_comp]⟩
  have hu := h _ h2
  have hdeg := natDegree_eq_zero_of_isUnit hu
  rw [natDegree_comp, natDegree_X_pow] at hdeg
  have h0 : d.natDegree = 0 := by
    rcases Nat.mul_eq_zero.mp hdeg with e | e
    · exact e
    · omega
  rw [eq_C_of_natDegree_eq_zero h0] at hu ⊢
  rw [C_comp] at hu
  exact hu

theorem comp_ne {d : ℚ[X]} {n k : ℕ} (hn : 0 < n) : (d.comp (X ^ n)).coeff k
    = if n ∣ k then d.coeff (k / n) else 0 := by
  rw [← expand_eq_comp_X_pow, coeff_expand hn]

theorem noBinomial_of_comp {r : ℚ[X]} {n : ℕ} (hn : 0 < n)
    (h : NoBinomialFactor (r.comp (X ^ n))) : NoBinomialFactor r := by
  intro d hd h2 hb
  refine h (d.comp (X ^ n)) ?_ ?_ ?_
  · obtain ⟨c, hc⟩ := hd
    exact ⟨c.comp (X ^ n), by rw [hc, mul_comp]⟩
  · rw [natDegree_comp, natDegree_X_pow]
    calc 2 ≤ d.natDegree := h2
      _ = d.natDegree * 1 := (mul_one _).symm
      _ ≤ d.natDegree * n := Nat.mul_le_mul_left _ hn
  · refine ⟨?_, ?_⟩
    · rw [comp_ne hn, if_pos (dvd_zero _), Nat.zero_div]; exact hb.1
    · intro k hk1 hk2
      rw [comp_ne hn]
      split_ifs with hk
      · rw [natDegree_comp, natDegree_X_pow] at hk2
        apply hb.2
        · exact Nat.one_le_iff_ne_zero.mpr (by
            intro e
            rw [Nat.div_eq_zero_iff] at e
            rcases e with e | e
            · omega
            · have := Nat.le_of_dvd (by omega) hk; omega)
        · exact (Nat.div_lt_iff_lt_mul hn).mpr hk2
      · rfl

/-! ### Integrality -/

theorem int_quotient {P : ℤ[X]} {q : ℚ[X]} {r : ℚ} (h : ofInt P = q * (X - C r)) :
    ∃ Q : ℤ[X], q = ofInt Q := by
  set L : ℤ[X] := C (r.den : ℤ) * X - C r.num with hL
  have hr : (r.den : ℚ) * r = r.num := by
    rw [mul_comm]; exact_mod_cast Rat.mul_den_eq_num r
  have hden : (r.den : ℚ) ≠ 0 := by exact_mod_cast r.den_nz
  have hLm : ofInt L = C (r.den : ℚ) * (X - C r) := by
    rw [hL]
    simp only [ofInt, Polynomial.map_sub, Polynomial.map_mul, map_C, map_X, mul_sub, ← C_mul, hr]
    simp
  have hprim : L.IsPrimitive := by
    intro d hd
    have h1 := C_dvd_iff_dvd_coeff d L |>.mp hd 1
    have h0 := C_dvd_iff_dvd_coeff d L |>.mp hd 0
    have c1 : L.coeff 1 = r.den := by
      rw [hL, coeff_sub, coeff_C_mul, coeff_X_one, coeff_C_succ]; simp
    have c0 : L.coeff 0 = -r.num := by simp [hL]
    rw [c1] at h1
    rw [c0, dvd_neg] at h0
    have hg : (d.natAbs : ℕ) ∣ Nat.gcd r.num.natAbs r.den :=
      Nat.dvd_gcd (Int.natAbs_dvd_natAbs.mpr h0) (by simpa using Int.natAbs_dvd_natAbs.mpr h1)
    rw [r.reduced] at hg
    exact Int.isUnit_iff_natAbs_eq.mpr (Nat.dvd_one.mp hg)
  have hdvd : L ∣ P := by
    rw [IsPrimitive.Int.dvd_iff_map_cast_dvd_map_cast _ _ hprim]
    refine ⟨C (r.den : ℚ)⁻¹ * q, ?_⟩
    change ofInt P = ofInt L * _
    rw [hLm, h]
    have : (C (r.den : ℚ) * C (r.den : ℚ)⁻¹ : ℚ[X]) = 1 := by
      rw [← C_mul, mul_inv_cancel₀ hden, C_1]
    linear_combination (-(q * (X - C r))) * this
  obtain ⟨Q, hQ⟩ := hdvd
  refine ⟨C (r.den : ℤ) * Q, ?_⟩
  have h2 : q * (X - C r) = ofInt (C (r.den : ℤ) * Q) * (X - C r) := by
    rw [← h, hQ]
    have : ofInt (L * Q) = ofInt L * ofInt Q := Polynomial.map_mul _
    rw [this, hLm]
    have : ofInt (C (r.den : ℤ) * Q) = C (r.den : ℚ) * ofInt Q := by
      simp [ofInt, Polynomial.map_mul]
    rw [this]; ring
  exact mul_right_cancel₀ (X_sub_C_ne_zero r) h2

theorem int_quotient_list (rs : List ℚ) : ∀ {P : ℤ[X]} {q : ℚ[X]},
    ofInt P = q * (rs.map fun r => (X - C r : ℚ[X])).prod → ∃ Q : ℤ[X], q = ofInt Q := by
  induction rs with
  | nil => intro P q h; exact ⟨P, by simpa using h.symm⟩
  | cons a l ih =>
    intro P q h
    rw [List.map_cons, List.prod_cons, ← mul_assoc] at h
    obtain ⟨Q, hQ⟩ := ih h
    exact int_quotient hQ.symm

theorem int_nested {P : ℤ[X]} (h : (ofInt P).natDegree ≠ 0) :
    ∃ R : ℤ[X], (isNested (ofInt P)).2 = ofInt R := by
  by_cases h1 : (ofInt P).coeff 1 = 0
  · by_cases hn : gcdExps (ofInt P) (firstExp (ofInt P)) > 1
    · refine ⟨∑ j ∈ Finset.range ((ofInt P).natDegree / gcdExps (ofInt P) (firstExp (ofInt P)) + 1),
        C (P.coeff (gcdExps (ofInt P) (firstExp (ofInt P)) * j)) * X ^ j, ?_⟩
      unfold isNested
      simp only [h, h1, hn, if_true, if_false, ne_eq, not_true_eq_false, nestedPoly_eq]
      rw [show ofInt = Polynomial.map (Int.castRingHom ℚ) from rfl, Polynomial.map_sum]
      simp [coeff_map]
    · refine ⟨P, ?_⟩
      unfold isNested
      simp only [h, h1, hn, if_false, ne_eq, not_true_eq_false]
  · refine ⟨P, ?_⟩
    unfold isNested
    rw [if_neg h, if_pos h1]

theorem NoBinomialFactor.of_dvd {p q : ℚ[X]} (h : NoBinomialFactor p) (hd : q ∣ p) :
    NoBinomialFactor q := fun d h1 h2 => h d (h1.trans hd) h2

/-! ### The recursion -/

/-- What the zero root contributes. -/
theorem zero_step {P : ℤ[X]} (hd : 1 ≤ (ofInt P).natDegree) (hs : Squarefree (ofInt P)) (mult : ℕ) :
    ∃ Q : ℤ[X], dropZero (ofInt P) = ofInt Q ∧ Q.coeff 0 ≠ 0 ∧ ofInt Q ∣ ofInt P ∧
      ((ofInt P).natTrailingDegree ≠ 1 → ofInt Q = ofInt P) ∧
      (∀ l, SplitsUpTo (ofInt Q) l → SplitsUpTo (ofInt P) (zeroRoots (ofInt P) mult ++ l)) := by
  have hp0 : ofInt P ≠ 0 := fun e => by rw [e] at hd; simp at hd
  by_cases ht : (ofInt P).natTrailingDegree = 1
  · have hc0 : (ofInt P).coeff 0 = 0 := coeff_eq_zero_of_lt_natTrailingDegree (by omega)
    have hX : ofInt P = divX (ofInt P) * X := by
      conv_lhs => rw [← divX_mul_X_add (ofInt P), hc0, C_0, add_zero]
    have hQ : divX (ofInt P) = ofInt (divX P) := by
      ext k; simp [ofInt, coeff_divX, coeff_map]
    have hc1 : (ofInt P).coeff 1 ≠ 0 := by
      have := trailingCoeff_nonzero_iff_nonzero.mpr hp0
      rwa [trailingCoeff, ht] at this
    refine ⟨divX P, ?_, ?_, ?_, fun h => absurd ht h, ?_⟩
    · unfold dropZero; rw [if_pos ht, hQ]
    · intro e
      apply hc1
      have : (ofInt (divX P)).coeff 0 = 0 := by simp [ofInt, coeff_map, e]
      rw [← hQ, coeff_divX] at this
      simpa using this
    · exact ⟨X, by rw [← hQ]; exact hX⟩
    · intro l hl
      unfold zeroRoots
      rw [if_pos ht]
      have := (splits_X mult).mul hl
      rwa [mul_comm, ← hQ, ← hX] at this
  · have hc0 : P.coeff 0 ≠ 0 := by
      intro e
      have e0 : (ofInt P).coeff 0 = 0 := by simp [ofInt, coeff_map, e]
      have hX : X * divX (ofInt P) = ofInt P := by
        conv_rhs => rw [← divX_mul_X_add (ofInt P), e0, C_0, add_zero, mul_comm]
      have hne : divX (ofInt P) ≠ 0 := fun h => hp0 (by rw [← hX, h, mul_zero])
      have htd : (ofInt P).natTrailingDegree = (divX (ofInt P)).natTrailingDegree + 1 := by
        conv_lhs => rw [← hX, mul_comm]
        rw [natTrailingDegree_mul hne X_ne_zero]; simp
      have h2 : (divX (ofInt P)).coeff 0 = 0 :=
        coeff_eq_zero_of_lt_natTrailingDegree (by omega)
      have hX2 : X * divX (divX (ofInt P)) = divX (ofInt P) := by
        conv_rhs => rw [← divX_mul_X_add (divX (ofInt P)), h2, C_0, add_zero, mul_comm]
      have hu : IsUnit (X : ℚ[X]) := hs X ⟨divX (divX (ofInt P)), by rw [mul_assoc, hX2, hX]⟩
      exact not_isUnit_X hu
    refine ⟨P, ?_, hc0, dvd_rfl, fun _ => rfl, ?_⟩
    · unfold dropZero; rw [if_neg ht]
    · intro l hl
      unfold zeroRoots
      rw [if_neg ht]; exact hl

theorem foldr_factors {fac : ℚ[X] → List ℚ[X]} {fuel : ℕ}
    (ih : ∀ (P : ℤ[X]) (roots rs : List Root) (mult : ℕ), 1 ≤ (ofInt P).natDegree →
      Squarefree (ofInt P) → NoBinomialFactor (ofInt P) →
      findRoots fac fuel (ofInt P) roots mult = some rs →
      ∃ new, rs = roots ++ new ∧ SplitsUpTo (ofInt P) new ∧ (mult = 1 → ∀ r ∈ new, r.mult = 1))
    (roots : List Root) : ∀ (fs : List ℚ[X]) (rs : List Root),
    (∀ f ∈ fs, (∃ F : ℤ[X], f = ofInt F) ∧ 1 ≤ f.natDegree) →
    Squarefree fs.prod → NoBinomialFactor fs.prod →
    fs.foldr (fun f acc => acc.bind fun rs => findRoots fac fuel f rs 1) (some roots) = some rs →
    ∃ new, rs = roots ++ new ∧ SplitsUpTo fs.prod new ∧ ∀ r ∈ new, r.mult = 1 := by
  intro fs
  induction fs with
  | nil =>
    intro rs _ _ _ h
    refine ⟨[], by simpa using h.symm, ?_, by simp⟩
    simpa using splits_const (c := 1) one_ne_zero
  | cons f fs ih2 =>
    intro rs hf hs hb h
    rw [List.foldr_cons] at h
    obtain ⟨rs1, h1, h2⟩ := Option.bind_eq_some_iff.mp h
    rw [List.prod_cons] at hs hb ⊢
    obtain ⟨new1, e1, s1, m1⟩ := ih2 rs1 (fun g hg => hf g (List.mem_cons_of_mem _ hg))
      (hs.squarefree_of_dvd (dvd_mul_left _ _)) (hb.of_dvd (dvd_mul_left _ _)) h1
    obtain ⟨⟨F, rfl⟩, hd⟩ := hf f List.mem_cons_self
    obtain ⟨new2, e2, s2, m2⟩ := ih F rs1 rs 1 hd (hs.squarefree_of_dvd (dvd_mul_right _ _))
      (hb.of_dvd (dvd_mul_right _ _)) h2
    refine ⟨new1 ++ new2, by rw [e2, e1, List.append_assoc], ?_, ?_⟩
    · have := s1.mul s2
      rwa [mul_comm] at this
    · intro r hr
      rcases List.mem_append.mp hr with hr | hr
      · exact m1 r hr
      · exact m2 rfl r hr

theorem findRoots_step {fac : ℚ[X] → List ℚ[X]} (hfac : GoodFactorizer fac) (fuel : ℕ)
    (ih : ∀ (P : ℤ[X]) (roots rs : List Root) (mult : ℕ), 1 ≤ (ofInt P).natDegree →
      Squarefree (ofInt P) → NoBinomialFactor (ofInt P) →
      findRoots fac fuel (ofInt P) roots mult = some rs →
      ∃ new, rs = roots ++ new ∧ SplitsUpTo (ofInt P) new ∧ (mult = 1 → ∀ r ∈ new, r.mult = 1)) :
    ∀ (P : ℤ[X]) (roots rs : List Root) (mult : ℕ), 1 ≤ (ofInt P).natDegree →
      Squarefree (ofInt P) → NoBinomialFactor (ofInt P) →
      findRoots fac (fuel + 1) (ofInt P) roots mult = some rs →
      ∃ new, rs = roots ++ new ∧ SplitsUpTo (ofInt P) new ∧ (mult = 1 → ∀ r ∈ new, r.mult = 1) := by
  intro P roots rs mult hd hs hb h
  obtain ⟨Q, hQ, hQ0, hQd, hQe, hQs⟩ := zero_step hd hs mult
  have hz : ∀ r ∈ zeroRoots (ofInt P) mult, r.mult = mult := by
    intro r hr
    unfold zeroRoots at hr
    split_ifs at hr
    · rw [List.mem_singleton.mp hr]
    · simp at hr
  rw [findRoots, findStep] at h
  dsimp only at h
  rw [hQ] at h
  have hsQ : Squarefree (ofInt Q) := hs.squarefree_of_dvd hQd
  have hbQ : NoBinomialFactor (ofInt Q) := hb.of_dvd hQd
  have hQne : ofInt Q ≠ 0 := hsQ.ne_zero
  -- it is enough to split `Q`
  suffices hmain : ∃ new, rs = (roots ++ zeroRoots (ofInt P) mult) ++ new ∧
      SplitsUpTo (ofInt Q) new ∧ (mult = 1 → ∀ r ∈ new, r.mult = 1) by
    obtain ⟨new, e, s, m⟩ := hmain
    refine ⟨zeroRoots (ofInt P) mult ++ new, by rw [e, List.append_assoc], hQs _ s, ?_⟩
    intro h1 r hr
    rcases List.mem_append.mp hr with hr | hr
    · rw [hz r hr, h1]
    · exact m h1 r hr
  generalize hR : roots ++ zeroRoots (ofInt P) mult = R at h ⊢
  by_cases c1 : (ofInt P).natTrailingDegree = 1 ∧ (ofInt Q).natDegree = 0
  · rw [if_pos c1] at h
    refine ⟨[], by simpa using h.symm, ?_, by simp⟩
    rw [eq_C_of_natDegree_eq_zero c1.2]
    apply splits_const
    intro e
    apply hQne
    rw [eq_C_of_natDegree_eq_zero c1.2, e, C_0]
  rw [if_neg c1] at h
  by_cases c2 : (ofInt Q).natDegree = 1
  · rw [if_pos c2] at h
    exact ⟨_, (Option.some.inj h).symm, splits_one c2 mult, by simp⟩
  rw [if_neg c2] at h
  have hdeg : 2 ≤ (ofInt Q).natDegree := by
    by_contra hc
    have h0 : (ofInt Q).natDegree = 0 := by omega
    by_cases ht : (ofInt P).natTrailingDegree = 1
    · exact c1 ⟨ht, h0⟩
    · rw [hQe ht] at h0; omega
  -- the search
  generalize hsm : (if |(ofInt Q).leadingCoeff| < 121 ∧ |(ofInt Q).coeff 0| < 121 then
    ratSearch (ofInt Q) else (ofInt Q, (ofInt Q).natDegree, [])) = s at h
  have hsearch : ofInt Q = s.1 * (s.2.2.map fun r => X - C r).prod ∧ s.2.1 = s.1.natDegree ∧
      s.1.natDegree ≠ 1 ∧
      (s.1.natDegree = 0 → |(ofInt Q).leadingCoeff| < 121 ∧ |(ofInt Q).coeff 0| < 121) := by
    by_cases hsmall : |(ofInt Q).leadingCoeff| < 121 ∧ |(ofInt Q).coeff 0| < 121
    · rw [if_pos hsmall] at hsm
      have hlc : (ofInt Q).leadingCoeff = ((Q.leadingCoeff : ℤ) : ℚ) := by
        rw [leadingCoeff_map_of_injective (f := Int.castRingHom ℚ) Int.cast_injective]; simp
      have hc0 : (ofInt Q).coeff 0 = ((Q.coeff 0 : ℤ) : ℚ) := by simp [ofInt, coeff_map]
      have hl : |Q.leadingCoeff| < 121 := by
        have := hsmall.1; rw [hlc, ← Int.cast_abs] at this; exact_mod_cast this
      have ht : |Q.coeff 0| < 121 := by
        have := hsmall.2; rw [hc0, ← Int.cast_abs] at this; exact_mod_cast this
      have := C06_search hQ0 hl ht hsQ
      rw [hsm] at this
      obtain ⟨a1, a2, a3, _, _⟩ := this
      refine ⟨a1, a3, ?_, fun _ => hsmall⟩
      intro h1
      have hlc1 : s.1.coeff 1 ≠ 0 := by
        have : s.1.leadingCoeff ≠ 0 := leadingCoeff_ne_zero.mpr
          (fun e => by rw [e] at h1; simp at h1)
        rwa [leadingCoeff, h1] at this
      apply a2 (-(s.1.coeff 0) / s.1.coeff 1)
      conv_lhs => rw [eq_X_add_C_of_natDegree_le_one h1.le]
      simp
      field_simp
      ring
    · rw [if_neg hsmall] at hsm
      rw [← hsm]
      exact ⟨by simp, rfl, c2, fun e => by simp only at e; omega⟩
  obtain ⟨a1, a2, a3, a4⟩ := hsearch
  have hsd : s.1 ∣ ofInt Q := ⟨_, a1⟩
  obtain ⟨S, hS⟩ := int_quotient_list s.2.2 a1
  have hsS : Squarefree (ofInt S) := hS ▸ hsQ.squarefree_of_dvd hsd
  have hbS : NoBinomialFactor (ofInt S) := hS ▸ hbQ.of_dvd hsd
  suffices hmain : ∃ new, rs = (R ++ ratRoots mult s.2.2) ++ new ∧
      SplitsUpTo s.1 new ∧ (mult = 1 → ∀ r ∈ new, r.mult = 1) by
    obtain ⟨new, e, sp, m⟩ := hmain
    refine ⟨ratRoots mult s.2.2 ++ new,
      by rw [e, List.append_assoc], ?_, ?_⟩
    · rw [a1, mul_comm]
      exact (splits_linear_list mult s.2.2).mul sp
    · intro h1 r hr
      rcases List.mem_append.mp hr with hr | hr
      · obtain ⟨x, _, rfl⟩ := List.mem_map.mp hr
        exact h1
      · exact m h1 r hr
  obtain ⟨R', hR'⟩ : ∃ R', R' = R ++ ratRoots mult s.2.2 := ⟨_, rfl⟩
  simp only [← hR'] at h ⊢
  by_cases c3 : (|(ofInt Q).leadingCoeff| < 121 ∧ |(ofInt Q).coeff 0| < 121) ∧ s.2.1 = 0
  · rw [if_pos c3] at h
    refine ⟨[], by simpa using h.symm, ?_, by simp⟩
    have h0 : s.1.natDegree = 0 := a2 ▸ c3.2
    rw [eq_C_of_natDegree_eq_zero h0]
    apply splits_const
    intro e
    apply hQne
    rw [a1, eq_C_of_natDegree_eq_zero h0, e, C_0, zero_mul]
  rw [if_neg c3, if_neg (fun c => hbQ _ dvd_rfl hdeg c.2)] at h
  have h0 : s.1.natDegree ≠ 0 := fun e => c3 ⟨a4 e, by rw [a2, e]⟩
  by_cases c4 : s.2.1 ≤ 4
  · rw [if_pos c4] at h
    obtain ⟨new, e, sp, m⟩ := splits_direct a3 h0 (a2 ▸ c4) h
    exact ⟨new, e, sp, fun _ => m⟩
  rw [if_neg c4] at h
  have hfactors : ∀ rs', (if (fac s.1).length > 1 then
      (fac s.1).foldr (fun f acc => acc.bind fun rs => findRoots fac fuel f rs 1) (some R')
      else none) = some rs' →
      ∃ new, rs' = R' ++ new ∧ SplitsUpTo s.1 new ∧ (mult = 1 → ∀ r ∈ new, r.mult = 1) := by
    intro rs' hr
    by_cases c5 : (fac s.1).length > 1
    · rw [if_pos c5, hS] at hr
      rw [hS] at c5
      obtain ⟨f1, c, hc, f2⟩ := hfac S hsS c5
      have hdv : (fac (ofInt S)).prod ∣ ofInt S := ⟨C c, by rw [mul_comm]; exact f2⟩
      obtain ⟨new, e, sp, m⟩ := foldr_factors ih R' (fac (ofInt S)) rs' f1
        (hsS.squarefree_of_dvd hdv) (hbS.of_dvd hdv) hr
      refine ⟨new, e, ?_, fun _ => m⟩
      rw [hS, f2]
      exact (splits_const hc).mul sp
    · rw [if_neg c5] at hr; simp at hr
  by_cases c6 : (isNested s.1).1 > 1
  · rw [if_pos c6] at h
    cases hn : findRoots fac fuel (isNested s.1).2 [] 1 with
    | none => rw [hn] at h; exact hfactors rs h
    | some ys =>
      rw [hn] at h
      simp only [Option.map_some, Option.some.injEq] at h
      have hcomp := (C09_nested h0).1
      rw [hS] at h0 hcomp hn c6 h
      obtain ⟨T, hT⟩ := int_nested h0
      have hpos : 0 < (isNested (ofInt S)).1 := by omega
      have hsT : Squarefree (ofInt T) := by
        rw [← hT]; apply squarefree_of_comp hpos; rw [← hcomp]; exact hsS
      have hbT : NoBinomialFactor (ofInt T) := by
        rw [← hT]; apply noBinomial_of_comp hpos; rw [← hcomp]; exact hbS
      have hdT : 1 ≤ (ofInt T).natDegree := by
        rw [← hT]
        rcases Nat.eq_zero_or_pos (isNested (ofInt S)).2.natDegree with e | e
        · exfalso
          apply h0
          rw [hcomp, natDegree_comp, e, zero_mul]
        · exact e
      rw [hT] at hn
      obtain ⟨new, e, sp, _⟩ := ih T [] ys 1 hdT hsT hbT hn
      rw [List.nil_append] at e
      subst e
      refine ⟨_, h.symm, ?_, ?_⟩
      · rw [hS, hcomp]
        rw [← hT] at sp
        have := splits_nested hpos mult sp
        rw [← hcomp] at this ⊢
        exact this
      · intro h1 r hr
        unfold nestedRoots at hr
        obtain ⟨j, _, hr⟩ := List.mem_flatMap.mp hr
        obtain ⟨y, _, rfl⟩ := List.mem_map.mp hr
        exact h1
  · rw [if_neg c6] at h
    exact hfactors rs h

theorem findRoots_sound {fac : ℚ[X] → List ℚ[X]} (hfac : GoodFactorizer fac) (fuel : ℕ) :
    ∀ (P : ℤ[X]) (roots rs : List Root) (mult : ℕ), 1 ≤ (ofInt P).natDegree →
      Squarefree (ofInt P) → NoBinomialFactor (ofInt P) →
      findRoots fac fuel (ofInt P) roots mult = some rs →
      ∃ new, rs = roots ++ new ∧ SplitsUpTo (ofInt P) new ∧ (mult = 1 → ∀ r ∈ new, r.mult = 1) := by
  induction fuel with
  | zero =>
    intro P roots rs mult _ _ _ h
    rw [findRoots] at h
    exact absurd h (by simp)
  | succ fuel ih => exact findRoots_step hfac fuel ih

end Purrs.AlgEq
