import Verif.Props.AlgEqAll

/-!
# C62: multiplicities

`find_roots` on a polynomial whose multiple factors have rational roots only.
-/

namespace Purrs.AlgEq

open Polynomial

/-- All roots of `p` are rational and `find_roots` searches for them: `p` is linear, or its leading and
trailing coefficients are below the threshold of the code. -/
def SmallRational (p : ℚ[X]) : Prop :=
  p.natDegree = 1 ∨ ((∃ (c : ℚ) (l : List ℚ), c ≠ 0 ∧ p = C c * (l.map fun r => X - C r).prod) ∧
    |p.leadingCoeff| < 121 ∧ |p.trailingCoeff| < 121)

theorem monic_list {α : Type} (l : List α) (f : α → ℂ[X]) (h : ∀ a ∈ l, (f a).Monic) :
    (l.map f).prod.Monic := by
  induction l with
  | nil => simp
  | cons a l ih =>
    rw [List.map_cons, List.prod_cons]
    exact (h a List.mem_cons_self).mul (ih fun b hb => h b (List.mem_cons_of_mem _ hb))

theorem const_of_no_root {p q : ℚ[X]} {c : ℚ} {l : List ℚ} (hc : c ≠ 0)
    (hp : p = C c * (l.map fun r => X - C r).prod) (hd : q ∣ p) (hn : ∀ r : ℚ, q.eval r ≠ 0) :
    q.natDegree = 0 := by
  have hsp : p.Splits := by
    rw [hp]
    refine Splits.mul (Splits.C c) ?_
    refine Splits.listProd ?_
    intro f hf
    obtain ⟨r, _, rfl⟩ := List.mem_map.mp hf
    exact Splits.X_sub_C r
  have hp0 : p ≠ 0 := by
    rw [hp]
    refine mul_ne_zero (C_ne_zero.mpr hc) ?_
    intro h0
    have h := List.prod_eq_zero_iff.mp h0
    obtain ⟨r, _, e⟩ := List.mem_map.mp h
    exact X_sub_C_ne_zero r e
  have hq : q.Splits := hsp.of_dvd hp0 hd
  by_contra h0
  have hdeg : q.degree ≠ 0 := fun e => h0 (natDegree_eq_of_degree_eq_some e)
  obtain ⟨r, hr⟩ := hq.exists_eval_eq_zero hdeg
  exact hn r hr

theorem trailing_dropZero {p : ℚ[X]} (h : p.natTrailingDegree ≤ 1) :
    (dropZero p).coeff 0 = p.trailingCoeff := by
  unfold dropZero trailingCoeff
  split_ifs with h1
  · rw [coeff_divX, h1]
  · rw [show p.natTrailingDegree = 0 by omega]

theorem leading_dropZero {p : ℚ[X]} : (dropZero p).leadingCoeff = p.leadingCoeff := by
  unfold dropZero
  split_ifs with h1
  · have hc : p.coeff 0 = 0 := coeff_eq_zero_of_lt_natTrailingDegree (by omega)
    have hX : p = divX p * X := by
      conv_lhs => rw [← divX_mul_X_add p, hc, C_0, add_zero]
    conv_rhs => rw [hX]
    rw [leadingCoeff_mul_X]
  · rfl

/-- On a polynomial with small rational roots one activation finds all roots, each with the multiplicity it
was given. -/
theorem findRoots_rational {fac : ℚ[X] → List ℚ[X]} (fuel : ℕ) (P : ℤ[X]) (roots rs : List Root) (mult : ℕ)
    (hd : 1 ≤ (ofInt P).natDegree) (hs : Squarefree (ofInt P)) (hr : SmallRational (ofInt P))
    (h : findRoots fac (fuel + 1) (ofInt P) roots mult = some rs) :
    ∃ new, rs = roots ++ new ∧ SplitsUpTo (ofInt P) new ∧ ∀ r ∈ new, r.mult = mult := by
  obtain ⟨Q, hQ, hQ0, hQd, hQe, hQs⟩ := zero_step hd hs mult
  have hp0 : ofInt P ≠ 0 := fun e => by rw [e] at hd; simp at hd
  have hz : ∀ r ∈ zeroRoots (ofInt P) mult, r.mult = mult := by
    intro r hr
    unfold zeroRoots at hr
    split_ifs at hr
    · rw [List.mem_singleton.mp hr]
    · simp at hr
  have htr : (ofInt P).natTrailingDegree ≤ 1 := by
    by_contra hc
    have h0 := hQe (by omega)
    have : (ofInt Q).coeff 0 = 0 := by
      rw [h0]; exact coeff_eq_zero_of_lt_natTrailingDegree (by omega)
    apply hQ0
    have h1 : (ofInt Q).coeff 0 = ((Q.coeff 0 : ℤ) : ℚ) := by simp [ofInt, coeff_map]
    rw [this] at h1
    exact_mod_cast h1.symm
  rw [findRoots, findStep] at h
  dsimp only at h
  rw [hQ] at h
  have hsQ : Squarefree (ofInt Q) := hs.squarefree_of_dvd hQd
  have hQne : ofInt Q ≠ 0 := hsQ.ne_zero
  suffices hmain : ∃ new, rs = (roots ++ zeroRoots (ofInt P) mult) ++ new ∧
      SplitsUpTo (ofInt Q) new ∧ (∀ r ∈ new, r.mult = mult) by
    obtain ⟨new, e, s, m⟩ := hmain
    refine ⟨zeroRoots (ofInt P) mult ++ new, by rw [e, List.append_assoc], hQs _ s, ?_⟩
    intro r hr
    rcases List.mem_append.mp hr with hr | hr
    · exact hz r hr
    · exact m r hr
  generalize hR : roots ++ zeroRoots (ofInt P) mult = R at h ⊢
  by_cases c1 : (ofInt P).natTrailingDegree = 1 ∧ (ofInt Q).natDegree = 0
  · rw [if_pos c1] at h
    refine ⟨[], by simpa using h.symm, ?_, by simp⟩
    rw [eq_C_of_natDegree_eq_zero c1.2]
    apply splits_const
    intro e
    apply hQne
    rw [eq_C_of_natDegree_eq_zero c1.2, e, C_0]
  rw [if_neg c1] at h
  by_cases c2 : (ofInt Q).natDegree = 1
  · rw [if_pos c2] at h
    exact ⟨_, (Option.some.inj h).symm, splits_one c2 mult, by simp⟩
  rw [if_neg c2] at h
  have hdeg : 2 ≤ (ofInt Q).natDegree := by
    by_contra hc
    have h0 : (ofInt Q).natDegree = 0 := by omega
    by_cases ht : (ofInt P).natTrailingDegree = 1
    · exact c1 ⟨ht, h0⟩
    · rw [hQe ht] at h0; omega
  rcases hr with h1 | ⟨⟨c, l, hc, hl⟩, b1, b2⟩
  · exfalso
    have := natDegree_le_of_dvd hQd hp0
    omega
  have hsmall : |(ofInt Q).leadingCoeff| < 121 ∧ |(ofInt Q).coeff 0| < 121 := by
    rw [← hQ, leading_dropZero, trailing_dropZero htr]; exact ⟨b1, b2⟩
  rw [if_pos hsmall] at h
  have hlc : (ofInt Q).leadingCoeff = ((Q.leadingCoeff : ℤ) : ℚ) := by
    rw [leadingCoeff_map_of_injective (f := Int.castRingHom ℚ) Int.cast_injective]; simp
  have hc0 : (ofInt Q).coeff 0 = ((Q.coeff 0 : ℤ) : ℚ) := by simp [ofInt, coeff_map]
  have hl' : |Q.leadingCoeff| < 121 := by
    have := hsmall.1; rw [hlc, ← Int.cast_abs] at this; exact_mod_cast this
  have ht' : |Q.coeff 0| < 121 := by
    have := hsmall.2; rw [hc0, ← Int.cast_abs] at this; exact_mod_cast this
  obtain ⟨a1, a2, a3, _, _⟩ := C06_search hQ0 hl' ht' hsQ
  generalize ratSearch (ofInt Q) = s at h a1 a2 a3
  have hzero : s.1.natDegree = 0 :=
    const_of_no_root hc hl (Dvd.dvd.trans ⟨_, a1⟩ hQd) a2
  rw [if_pos ⟨hsmall, by rw [a3, hzero]⟩] at h
  refine ⟨_, (Option.some.inj h).symm, ?_, ?_⟩
  · rw [a1, mul_comm]
    have hcst : SplitsUpTo s.1 [] := by
      rw [eq_C_of_natDegree_eq_zero hzero]
      apply splits_const
      intro e
      apply hQne
      rw [a1, eq_C_of_natDegree_eq_zero hzero, e, C_0, zero_mul]
    have := (splits_linear_list mult s.2.2).mul hcst
    rwa [List.append_nil] at this
  · intro r hr
    obtain ⟨x, _, rfl⟩ := List.mem_map.mp hr
    rfl

/-- The values of the list with the recorded multiplicities are all the roots of `p`: `p` is its leading
coefficient times the product of the powers of the linear factors. -/
def SplitsWith (p : ℚ[X]) (l : List Root) : Prop :=
  toC p = C ((p.leadingCoeff : ℚ) : ℂ) * (l.map fun r => (X - C r.val : ℂ[X]) ^ r.mult).prod

/-- The factors of the square-free decomposition that the code handles: simple ones without a binomial
factor, and those with small rational roots. -/
def Handled (f : ℚ[X] × ℕ) : Prop := (f.2 = 1 ∧ NoBinomialFactor f.1) ∨ SmallRational f.1

theorem foldl_handled {fac : ℚ[X] → List ℚ[X]} (hfac : GoodFactorizer fac) (fuel : ℕ) :
    ∀ (sqf : List (ℚ[X] × ℕ)) (roots rs : List Root),
    (∀ f ∈ sqf, (∃ F : ℤ[X], f.1 = ofInt F) ∧ 1 ≤ f.1.natDegree ∧ Squarefree f.1 ∧ 1 ≤ f.2) →
    (∀ f ∈ sqf, Handled f) →
    sqf.foldl (fun acc f => acc.bind fun rs => findRoots fac fuel f.1 rs f.2) (some roots) = some rs →
    ∃ new, rs = roots ++ new ∧ (∃ c : ℂ, c ≠ 0 ∧
      toC (sqf.map fun f => f.1 ^ f.2).prod = C c * (new.map fun r => (X - C r.val : ℂ[X]) ^ r.mult).prod) ∧
      SplitsUpTo (sqf.map Prod.fst).prod new ∧ ∀ r ∈ new, 1 ≤ r.mult := by
  intro sqf
  induction sqf with
  | nil =>
    intro roots rs _ _ h
    exact ⟨[], by simpa using h.symm, ⟨1, one_ne_zero, by simp [toC]⟩,
      by simpa using splits_const (c := 1) one_ne_zero, by simp⟩
  | cons f l ih =>
    intro roots rs hf hb h
    rw [List.foldl_cons, Option.bind_some] at h
    obtain ⟨⟨F, hF⟩, h1, h2, h3⟩ := hf f List.mem_cons_self
    cases hr : findRoots fac fuel f.1 roots f.2 with
    | none =>
      rw [hr] at h
      exfalso
      have : ∀ l : List (ℚ[X] × ℕ),
          l.foldl (fun acc f => acc.bind fun rs => findRoots fac fuel f.1 rs f.2) none = none := by
        intro l
        induction l with
        | nil => rfl
        | cons a l ih => simpa using ih
      rw [this] at h
      exact absurd h (by simp)
    | some rs1 =>
      rw [hr] at h
      rw [hF] at hr h1 h2
      have hone : ∃ n1, rs1 = roots ++ n1 ∧ SplitsUpTo (ofInt F) n1 ∧ ∀ r ∈ n1, r.mult = f.2 := by
        rcases hb f List.mem_cons_self with ⟨b1, b2⟩ | b
        · obtain ⟨n1, e1, s1, m1⟩ := findRoots_sound hfac fuel F roots rs1 f.2 h1 h2 (hF ▸ b2) hr
          exact ⟨n1, e1, s1, fun r hr => by rw [m1 b1 r hr, b1]⟩
        · cases fuel with
          | zero => rw [findRoots] at hr; exact absurd hr (by simp)
          | succ fuel => exact findRoots_rational fuel F roots rs1 f.2 h1 h2 (hF ▸ b) hr
      obtain ⟨n1, e1, ⟨c1, hc1, s1⟩, m1⟩ := hone
      obtain ⟨n2, e2, ⟨c2, hc2, s2⟩, t2, m2⟩ := ih rs1 rs (fun g hg => hf g (List.mem_cons_of_mem _ hg))
        (fun g hg => hb g (List.mem_cons_of_mem _ hg)) h
      refine ⟨n1 ++ n2, by rw [e2, e1, List.append_assoc], ⟨c1 ^ f.2 * c2, ?_, ?_⟩, ?_, ?_⟩
      · exact mul_ne_zero (pow_ne_zero _ hc1) hc2
      · have hmap : n1.map (fun r => (X - C r.val : ℂ[X]) ^ r.mult)
            = n1.map (fun r => (X - C r.val : ℂ[X]) ^ f.2) :=
          List.map_congr_left fun r hr => by rw [m1 r hr]
        have hpow : (n1.map (fun r => (X - C r.val : ℂ[X]) ^ f.2)).prod
            = (n1.map (fun r => (X - C r.val : ℂ[X]))).prod ^ f.2 := by
          clear * -
          induction n1 with
          | nil => simp
          | cons a l ih => rw [List.map_cons, List.prod_cons, ih, List.map_cons, List.prod_cons, mul_pow]
        rw [List.map_cons, List.prod_cons, toC, Polynomial.map_mul, Polynomial.map_pow, ← toC, ← toC, s2, hF,
          s1, List.map_append, List.prod_append, hmap, hpow, C_mul, C_pow, mul_pow]
        ring
      · rw [List.map_cons, List.prod_cons, hF]
        exact SplitsUpTo.mul ⟨c1, hc1, s1⟩ t2
      · intro r hr
        rcases List.mem_append.mp hr with hr | hr
        · rw [m1 r hr]; exact h3
        · exact m2 r hr

theorem nodup_of_squarefree {p : ℚ[X]} {l : List Root} (hp : Squarefree p) (h : SplitsUpTo p l) :
    (l.map Root.val).Nodup := by
  have hsep : (toC p).Separable := Separable.map (PerfectField.separable_iff_squarefree.mpr hp)
  obtain ⟨d, hd0, e'⟩ := h
  have hroots : (toC p).roots = ((l.map Root.val : List ℂ) : Multiset ℂ) := by
    rw [e', roots_C_mul _ hd0]
    have : (l.map fun r => (X - C r.val : ℂ[X])).prod
        = (((l.map Root.val : List ℂ) : Multiset ℂ).map fun a => X - C a).prod := by
      rw [Multiset.map_coe, Multiset.prod_coe, List.map_map]; rfl
    rw [this, roots_multiset_prod_X_sub_C]
  have := nodup_roots hsep
  rw [hroots] at this
  exact Multiset.coe_nodup.mp this

/-- **C62** (multiplicities).  When `find_roots` succeeds on an integer polynomial whose multiple
square-free factors, and whose factors `a x^n + k`, have rational roots with small coefficients only, the
values and multiplicities appended to the vector are those of all the roots.  Missing from the full
property: the polynomials refuted below and in Props/AlgEqAll.lean. -/
theorem C62_multiplicities_partial {fac : ℚ[X] → List ℚ[X]} (hfac : GoodFactorizer fac) (fuel : ℕ)
    {p : ℚ[X]} {sqf : List (ℚ[X] × ℕ)} (hp : IsSqfOf p sqf)
    (hb : ∀ f ∈ sqf, Handled f) {roots rs : List Root} {distinct : Bool}
    (h : findAllRoots fac fuel sqf roots = (some rs, distinct)) :
    ∃ new, rs = roots ++ new ∧ SplitsWith p new ∧ (∀ r ∈ new, 1 ≤ r.mult) ∧
      (distinct = true → ∀ r ∈ new, r.mult = 1) ∧
      (Squarefree (sqf.map Prod.fst).prod → (new.map Root.val).Nodup) := by
  obtain ⟨⟨c, hc, hpe⟩, hf⟩ := hp
  unfold findAllRoots at h
  obtain ⟨h1, h2⟩ := Prod.mk.inj h
  obtain ⟨new, e, ⟨d, hd, s⟩, t, m⟩ := foldl_handled hfac fuel sqf roots rs hf hb h1
  refine ⟨new, e, ?_, m, ?_, fun hq => nodup_of_squarefree hq t⟩
  · have hmon : (new.map fun r => (X - C r.val : ℂ[X]) ^ r.mult).prod.Monic := by
      apply monic_list
      intro r hr
      exact (monic_X_sub_C _).pow _
    have key : toC p = C ((c : ℂ) * d) * (new.map fun r => (X - C r.val : ℂ[X]) ^ r.mult).prod := by
      rw [hpe, toC, Polynomial.map_mul, ← toC, ← toC, s, toC, map_C, C_mul, mul_assoc]
      rfl
    have hlc : ((p.leadingCoeff : ℚ) : ℂ) = (c : ℂ) * d := by
      have := leadingCoeff_map_of_injective (f := algebraMap ℚ ℂ) (algebraMap ℚ ℂ).injective (p := p)
      rw [show p.map (algebraMap ℚ ℂ) = toC p from rfl, key, leadingCoeff_mul, leadingCoeff_C,
        hmon.leadingCoeff, mul_one] at this
      exact this.symm
    unfold SplitsWith
    rw [hlc, key]
  · intro hdis
    rw [hdis] at h2
    obtain ⟨hl, hm⟩ := of_decide_eq_true h2
    obtain ⟨f, rfl⟩ := List.length_eq_one_iff.mp hl
    have hf1 := hm f List.mem_cons_self
    -- the only factor is simple
    simp only [List.map_cons, List.map_nil, List.prod_cons, List.prod_nil, mul_one, hf1, pow_one] at s t
    intro r hr
    obtain ⟨d2, hd2, s2⟩ := t
    have hdeg : ((new.map fun r => (X - C r.val : ℂ[X]) ^ r.mult).prod).natDegree
        = ((new.map fun r => (X - C r.val : ℂ[X]))).prod.natDegree := by
      have a1 := congrArg natDegree s
      have a2 := congrArg natDegree s2
      rw [natDegree_C_mul hd] at a1
      rw [natDegree_C_mul hd2] at a2
      rw [← a1, a2]
    have e1 : ∀ l : List Root, ((l.map fun r => (X - C r.val : ℂ[X]) ^ r.mult).prod).natDegree
        = (l.map Root.mult).sum := by
      intro l
      induction l with
      | nil => simp
      | cons a l ih =>
        rw [List.map_cons, List.prod_cons, Monic.natDegree_mul ((monic_X_sub_C _).pow _)
          (monic_list _ _ fun r _ => (monic_X_sub_C _).pow _), ih]
        simp
    have e2 : ((new.map fun r => (X - C r.val : ℂ[X]))).prod.natDegree = new.length := by
      clear * -
      induction new with
      | nil => simp
      | cons a l ih =>
        rw [List.map_cons, List.prod_cons, Monic.natDegree_mul (monic_X_sub_C _)
          (monic_list _ _ fun r _ => monic_X_sub_C _), ih]
        simp; ring
    rw [e1, e2] at hdeg
    clear * - hdeg m hr
    induction new with
    | nil => simp at hr
    | cons a l ih =>
      have hlow : l.length ≤ (l.map Root.mult).sum := by
        clear * - m
        induction l with
        | nil => simp
        | cons b l ih =>
          have := m b (by simp)
          have := ih (fun r hr => m r (by
            rcases List.mem_cons.mp hr with h | h
            · simp [h]
            · simp [h]))
          simp; omega
      have ha := m a (by simp)
      simp only [List.map_cons, List.sum_cons, List.length_cons] at hdeg
      rcases List.mem_cons.mp hr with h | h
      · rw [h]; omega
      · exact ih (fun r hr => m r (List.mem_cons_of_mem _ hr)) h (by omega)

/-- The hypotheses are met by `(x - 2)^2 (x^2 - x - 1)`. -/
example : IsSqfOf (ofInt (quad (-1) (-1)) * ofInt (X - C 2) ^ 2)
      [(ofInt (quad (-1) (-1)), 1), (ofInt (X - C 2), 2)] ∧
    (∀ f ∈ [(ofInt (quad (-1) (-1)), 1), (ofInt (X - C 2), 2)], Handled f) ∧
    ∃ rs, findAllRoots (fun p => [p]) 1 [(ofInt (quad (-1) (-1)), 1), (ofInt (X - C 2), 2)] [] = (some rs, false) ∧
      rs.map Root.mult = [1, 1, 2] := by
  have hlin : ofInt (X - C 2) = X - C 2 := by
    simp only [ofInt, Polynomial.map_sub, map_X, map_C]; simp
  have hd1 : (ofInt (X - C 2)).natDegree = 1 := by rw [hlin, natDegree_X_sub_C]
  refine ⟨⟨⟨1, one_ne_zero, by simp⟩, ?_⟩, ?_, ?_⟩
  · intro f hf
    simp only [List.mem_cons, List.not_mem_nil, or_false] at hf
    rcases hf with rfl | rfl
    · exact ⟨⟨_, rfl⟩, by rw [(quadQ _ _).2.2.1]; omega, (quad_irreducible golden).squarefree, by simp⟩
    · refine ⟨⟨_, rfl⟩, by rw [hd1], ?_, by simp⟩
      rw [hlin]; exact (irreducible_X_sub_C _).squarefree
  · intro f hf
    simp only [List.mem_cons, List.not_mem_nil, or_false] at hf
    rcases hf with rfl | rfl
    · exact Or.inl ⟨rfl, golden_noBinomial⟩
    · exact Or.inr (Or.inl hd1)
  · refine ⟨[⟨(solve2 ((-1 : ℤ) : ℂ) ((-1 : ℤ) : ℂ)).1, false, 1⟩,
      ⟨(solve2 ((-1 : ℤ) : ℂ) ((-1 : ℤ) : ℂ)).2, false, 1⟩, ⟨2, true, 2⟩], ?_, by simp⟩
    have ht : (ofInt (X - C 2)).natTrailingDegree = 0 := by
      apply natTrailingDegree_eq_zero.mpr; right; rw [hlin]; simp
    have h1 : ∀ roots, findRoots (fun p => [p]) 1 (ofInt (X - C 2)) roots 2 = some (roots ++ [⟨2, true, 2⟩]) := by
      intro roots
      have hz : zeroRoots (ofInt (X - C 2)) 2 = [] := by unfold zeroRoots; rw [ht]; rfl
      have hq : dropZero (ofInt (X - C 2)) = ofInt (X - C 2) := by unfold dropZero; rw [ht]; rfl
      rw [findRoots, findStep]
      dsimp only
      rw [hq, hz, if_neg (by rw [hd1]; simp), if_pos hd1, hlin, (monic_X_sub_C (2 : ℚ)).leadingCoeff]
      simp
    unfold findAllRoots
    have h2 := quad_run (fun p => [p]) (b := -1) (c := -1) (by decide) (by decide) golden 1
    rw [if_neg (by decide)] at h2
    simp only [List.foldl_cons, List.foldl_nil, Option.bind_some]
    rw [h2]
    simp only [Option.bind_some, h1]
    simp

end Purrs.AlgEq
