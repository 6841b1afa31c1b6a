import Verif.Props.ExactFund

set_option linter.unusedSectionVars false

/-!
# C31: the method of undetermined coefficients solves the recurrence
-/

namespace Purrs.Exact

open Polynomial Finset

variable {K : Type} [Field K]

/-- The recurrence with another inhomogeneous term. -/
def LinRec.withP (R : LinRec K) (p : ℤ → K) : LinRec K := { R with p := p }

theorem natDegree_specialPoly (c : ℕ → K) (deg : ℕ) : (specialPoly c deg).natDegree ≤ deg := by
  unfold specialPoly
  refine natDegree_sum_le_of_forall_le _ _ fun i hi => ?_
  rw [mem_range] at hi
  rw [mul_comm]
  exact (natDegree_C_mul_X_pow_le _ _).trans (by omega)

theorem natDegree_specialDiff (a : ℕ → K) (k : ℕ) (poly q : K[X]) (base : K) (d : ℕ)
    (hp : poly.natDegree ≤ d) (hq : q.natDegree ≤ d) : (specialDiff a k poly base q).natDegree ≤ d := by
  unfold specialDiff
  refine (natDegree_sub_le _ _).trans (max_le ((natDegree_sub_le _ _).trans (max_le hq ?_)) hp)
  refine natDegree_sum_le_of_forall_le _ _ fun j _ => ?_
  refine (natDegree_C_mul_le _ _).trans ?_
  refine natDegree_comp_le.trans ?_
  rw [natDegree_X_sub_C, mul_one]
  exact hq

/-- A solution of the equations that `compute_special_solution` sets up gives a sequence satisfying
the recurrence at *every* integer. -/
theorem special_everywhere (R : LinRec K) (poly : K[X]) (base : K) (mult : ℕ) (c : ℕ → K) (hb : base ≠ 0)
    (h : SpecialSolved R poly base mult c) (n : ℤ) :
    specialSolution poly base mult c n
      = (∑ j ∈ range R.k, R.a (j + 1) * specialSolution poly base mult c (n - ((j : ℤ) + 1)))
        + poly.eval (n : K) * base ^ n := by
  have h0 : specialDiff R.a R.k poly base (specialPoly c (poly.natDegree + mult)) = 0 := by
    ext i
    rw [coeff_zero]
    by_cases hi : i < poly.natDegree + mult + 1
    · exact h i hi
    · apply coeff_eq_zero_of_natDegree_lt
      have := natDegree_specialDiff R.a R.k poly (specialPoly c (poly.natDegree + mult)) base
        (poly.natDegree + mult) (by omega) (natDegree_specialPoly c _)
      omega
  have h1 := congrArg (eval (n : K)) h0
  unfold specialDiff at h1
  rw [eval_sub, eval_sub, eval_finsetSum, eval_zero] at h1
  unfold specialSolution
  have h2 : ∀ j ∈ range R.k, R.a (j + 1) * ((specialPoly c (poly.natDegree + mult)).eval
        ((n - ((j : ℤ) + 1) : ℤ) : K) * base ^ (n - ((j : ℤ) + 1)))
      = (C (R.a (j + 1) * base ^ (-((j : ℤ) + 1))) *
          (specialPoly c (poly.natDegree + mult)).comp (X - C ((j : K) + 1))).eval (n : K) * base ^ n := by
    intro j _
    rw [eval_mul, eval_C, eval_comp, eval_sub, eval_X, eval_C, sub_eq_add_neg n, zpow_add₀ hb]
    push_cast
    rw [sub_eq_add_neg]
    ring
  rw [sum_congr rfl h2, ← sum_mul, ← add_mul]
  congr 1
  linear_combination h1

/-- The value that `compute_special_solution` returns satisfies the recurrence with inhomogeneous
term `poly(n) * base^n`. -/
theorem C31_special_solution (R : LinRec K) (poly : K[X]) (base : K) (mult : ℕ) (c : ℕ → K) (hb : base ≠ 0)
    (h : SpecialSolved R poly base mult c) :
    Solves (R.withP fun n => poly.eval (n : K) * base ^ n) (specialSolution poly base mult c) :=
  fun n _ => special_everywhere R poly base mult c hb h n

theorem newSpecial_eq [DecidableEq K] (roots : List (K × ℕ)) (ts : List (ExpTerm K)) (n : ℤ) :
    newSpecial roots ts n
      = (ts.map fun t => specialSolution t.poly t.base (baseMult roots t.base) t.c n).sum := by
  have : ∀ (l : List (ExpTerm K)) (F : ExpTerm K → K) (c : K),
      l.foldl (fun s t => s + F t) c = c + (l.map F).sum := by
    intro l F c
    induction l generalizing c with
    | nil => simp
    | cons a l ih => simp only [List.foldl_cons, List.map_cons, List.sum_cons, ih]; ring
  unfold newSpecial
  rw [this _ (fun t => specialSolution t.poly t.base (baseMult roots t.base) t.c n), zero_add]

/-- The inhomogeneous term is the sum of the terms of the decomposition. -/
def Decomposes (p : ℤ → K) (ts : List (ExpTerm K)) : Prop :=
  ∀ n : ℤ, p n = (ts.map fun t => t.poly.eval (n : K) * t.base ^ n).sum

/-- The sum of the special solutions satisfies the recurrence. -/
theorem newSpecial_solves [DecidableEq K] (R : LinRec K) (roots : List (K × ℕ)) (ts : List (ExpTerm K))
    (hp : Decomposes R.p ts) (hb : ∀ t ∈ ts, t.base ≠ 0)
    (hs : ∀ t ∈ ts, SpecialSolved R t.poly t.base (baseMult roots t.base) t.c) :
    Solves R (newSpecial roots ts) := by
  intro n _
  rw [hp n]
  simp only [newSpecial_eq]
  clear hp
  induction ts with
  | nil => simp
  | cons t ts ih =>
    simp only [List.map_cons, List.sum_cons, mul_add, sum_add_distrib]
    rw [ih (fun t ht => hb t (by simp [ht])) (fun t ht => hs t (by simp [ht])),
      special_everywhere R t.poly t.base _ t.c (hb t (by simp)) (hs t (by simp)) n]
    ring

/-- The elementary sequences in the order of `general_solution`. -/
def homBasis (roots : List (K × ℕ)) : List (ℤ → K) :=
  roots.flatMap fun r => (List.range r.2).map fun j => fun n => r.1 ^ n * (n : K) ^ j

theorem generalHom_eq (u : ℕ → K) (n : ℤ) (roots : List (K × ℕ)) : ∀ (h : ℕ) (g : K),
    generalHom u n roots h g = g + combo u (homBasis roots) h n := by
  induction roots with
  | nil => intro h g; simp [generalHom, homBasis, combo]
  | cons r rs ih =>
    intro h g
    unfold generalHom
    have e : (fun (st : ℕ × K) j => (st.1 + 1, st.2 + u st.1 * r.1 ^ n * (n : K) ^ j))
        = (fun (st : ℕ × K) (j : ℕ) => (st.1 + 1, st.2 + u st.1 * (fun j (n : ℤ) => r.1 ^ n * (n : K) ^ j) j n)) := by
      funext st j; simp only [mul_assoc]
    have e3 := inner_loop u n (fun j (n : ℤ) => r.1 ^ n * (n : K) ^ j) (List.range r.2) h g
    rw [e]
    dsimp only at e3 ⊢
    rw [e3, ih]
    have e2 : homBasis (r :: rs) = ((List.range r.2).map fun j => fun (n : ℤ) => r.1 ^ n * (n : K) ^ j) ++ homBasis rs := by
      simp [homBasis]
    rw [e2, combo_append, List.length_map, add_assoc]

theorem homBasis_hom {R : LinRec K} {roots : List (K × ℕ)} (hr : AreRoots R roots) (hk : 1 ≤ R.k)
    (ha : R.a R.k ≠ 0) : ∀ b ∈ homBasis roots, Hom R b := by
  intro b hb
  unfold homBasis at hb
  rw [List.mem_flatMap] at hb
  obtain ⟨r, hr1, hb⟩ := hb
  rw [List.mem_map] at hb
  obtain ⟨j, hj, rfl⟩ := hb
  have := hom_root hr hk ha hr1 (j := j) (by simpa using hj)
  simpa only [mul_comm] using this

/-- `general_solution` satisfies the recurrence whatever values are given to the unknowns. -/
theorem general_solves (R : LinRec K) (roots : List (K × ℕ)) (hk : 1 ≤ R.k) (ha : R.a R.k ≠ 0)
    (hr : AreRoots R roots) (s : ℤ → K) (hs : Solves R s) (u : ℕ → K) :
    Solves R (generalSolution roots u s) := by
  have : generalSolution roots u s = fun n => combo u (homBasis roots) 0 n + s n := by
    funext n
    unfold generalSolution
    rw [generalHom_eq, add_comm]
  rw [this]
  exact solves_add_hom hs (combo_hom u _ (homBasis_hom hr hk ha) 0)

/-- The new method for orders `≥ 2`: the solution returned is the sequence itself from the first
valid index on. -/
theorem C31_new_method [DecidableEq K] (R : LinRec K) (roots : List (K × ℕ)) (hk : 1 ≤ R.k)
    (ha : R.a R.k ≠ 0) (hr : AreRoots R roots) (ts : List (ExpTerm K)) (hp : Decomposes R.p ts)
    (hb : ∀ t ∈ ts, t.base ≠ 0)
    (hs : ∀ t ∈ ts, SpecialSolved R t.poly t.base (baseMult roots t.base) t.c)
    (u : ℕ → K) (x : ℤ → K) (hu : ICSolved R.f roots u (newSpecial roots ts) x) (hx : Solves R x) :
    ∀ n : ℤ, (R.f : ℤ) ≤ n → newSolution roots ts u n = x n := by
  refine solves_unique (general_solves R roots hk ha hr _ (newSpecial_solves R roots ts hp hb hs) u) hx ?_
  intro i hi
  have := hu i (by unfold numUnknowns; rw [order_eq hr]; exact hi)
  exact (sub_eq_zero.mp this).symm

/-- The new method for order 1, from any special solution (also the one of the fast path, which is
`sum_poly_alt`). -/
theorem C31_new_method_order1 (R : LinRec K) (hk : R.k = 1) (ha : R.a 1 ≠ 0) (s : ℤ → K) (hs : Solves R s)
    (x : ℤ → K) (hx : Solves R x) :
    ∀ n : ℤ, (R.f : ℤ) ≤ n → newSolution1 R s x n = x n := by
  refine solves_unique (R := R) ?_ hx ?_
  · intro n hn
    have := hs n hn
    rw [hk, sum_range_one] at this ⊢
    unfold newSolution1
    rw [show n - (R.f : ℤ) = (n - (((0 : ℕ) : ℤ) + 1) - R.f) + 1 by push_cast; ring, zpow_add₀ ha, zpow_one, this]
    ring
  · intro i hi
    obtain rfl : i = 0 := by omega
    unfold newSolution1
    simp

/-- Special solutions of two inhomogeneous terms add up. -/
theorem solves_add (R : LinRec K) (p q s t : ℤ → K) (hs : Solves (R.withP p) s) (ht : Solves (R.withP q) t) :
    Solves (R.withP fun n => p n + q n) fun n => s n + t n := by
  intro n hn
  have h1 := hs n hn
  have h2 := ht n hn
  simp only [LinRec.withP] at h1 h2 ⊢
  simp only [mul_add, sum_add_distrib]
  rw [h1, h2]; ring

/-- The fast path of `compute_special_solution` (src/compute_exact_solution.cc:668-672): for
`x(n) = x(n-1) + poly(n)` the sum `poly(0) + ... + poly(n)` is a special solution. -/
theorem C31_fast_path (R : LinRec K) (hk : R.k = 1) (ha : R.a 1 = 1) (s : ℤ → K)
    (hs : ∀ n : ℕ, s n = ∑ j ∈ range (n + 1), R.p j) : Solves R s := by
  intro n hn
  obtain ⟨m, rfl⟩ : ∃ m : ℕ, n = ((m + 1 : ℕ) : ℤ) := ⟨(n - 1).toNat, by omega⟩
  rw [hk, sum_range_one, hs, sum_range_succ]
  have : ((m + 1 : ℕ) : ℤ) - (((0 : ℕ) : ℤ) + 1) = (m : ℤ) := by push_cast; ring
  rw [zero_add, ha, one_mul, this, hs]

end Purrs.Exact
