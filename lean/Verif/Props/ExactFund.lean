import Verif.Props.ExactOld
import Mathlib.Algebra.Polynomial.BigOperators
import Mathlib.Data.List.GetD

set_option linter.unusedSectionVars false

/-!
# C31: `solve_system` and `find_g_n` compute the fundamental solution
-/

namespace Purrs.Exact

open Polynomial Finset

variable {K : Type} [Field K]

theorem sysRhs_length (a : ℕ → K) : ∀ m, (sysRhs a m).length = m
  | 0 => rfl
  | 1 => rfl
  | m + 2 => by
    have := sysRhs_length a (m + 1)
    simp only [sysRhs, List.length_append, List.length_singleton, this]

theorem sysRhs_stable (a : ℕ → K) (m i : ℕ) (h : i < m) :
    (sysRhs a (m + 1)).getD i 0 = (sysRhs a m).getD i 0 := by
  match m, h with
  | m + 1, h =>
    simp only [sysRhs]
    rw [List.getD_append _ _ _ _ (by rw [sysRhs_length]; exact h)]

theorem sysRhs_stable' (a : ℕ → K) (i m : ℕ) (h : i < m) :
    (sysRhs a m).getD i 0 = (sysRhs a (i + 1)).getD i 0 := by
  induction m with
  | zero => omega
  | succ m ih =>
    by_cases hm : i = m
    · rw [hm]
    · rw [sysRhs_stable a m i (by omega), ih (by omega)]

theorem foldl_add_sum (l : List ℕ) (F : ℕ → K) (c : K) :
    l.foldl (fun s j => s + F j) c = c + (l.map F).sum := by
  induction l generalizing c with
  | nil => simp
  | cons a l ih => simp only [List.foldl_cons, List.map_cons, List.sum_cons, ih]; ring

/-- The right-hand sides of the system are the first values of the fundamental solution. -/
theorem sysRhs_spec (a : ℕ → K) (k i : ℕ) (h : i < k) :
    (i = 0 → (sysRhs a k).getD i 0 = 1) ∧
    (1 ≤ i → (sysRhs a k).getD i 0 = ∑ j ∈ range i, a (j + 1) * (sysRhs a k).getD (i - (j + 1)) 0) := by
  rw [sysRhs_stable' a i k h]
  refine ⟨fun h0 => by subst h0; rfl, fun h1 => ?_⟩
  obtain ⟨m, rfl⟩ : ∃ m, i = m + 1 := ⟨i - 1, by omega⟩
  simp only [sysRhs]
  rw [List.getD_append_right _ _ _ _ (by rw [sysRhs_length])]
  rw [sysRhs_length, Nat.sub_self]
  simp only [List.getD_cons_zero]
  rw [foldl_add_sum, zero_add]
  show ∑ j ∈ range (m + 1), _ = _
  refine sum_congr rfl fun j hj => ?_
  rw [mem_range] at hj
  rw [sysRhs_stable' a (m + 1 - j - 1) (m + 1) (by omega), show m + 1 - (j + 1) = m + 1 - j - 1 by omega,
    sysRhs_stable' a (m + 1 - j - 1) k (by omega)]

/-- The elementary sequences `n^j r^n` in the order in which `find_g_n` uses them. -/
def gBasis (roots : List (K × ℕ)) : List (ℤ → K) :=
  roots.flatMap fun r => (List.range r.2).reverse.map fun j => fun n => (n : K) ^ j * r.1 ^ n

/-- The linear combination of a list of sequences, with the unknowns numbered from `h`. -/
def combo (sol : ℕ → K) (l : List (ℤ → K)) (h : ℕ) (n : ℤ) : K :=
  ((l.zipIdx h).map fun c => c.1 n * sol c.2).sum

theorem combo_append (sol : ℕ → K) (l m : List (ℤ → K)) (h : ℕ) (n : ℤ) :
    combo sol (l ++ m) h n = combo sol l h n + combo sol m (h + l.length) n := by
  unfold combo
  rw [List.zipIdx_append, List.map_append, List.sum_append]

theorem inner_loop (sol : ℕ → K) (n : ℤ) (F : ℕ → ℤ → K) (L : List ℕ) : ∀ (h : ℕ) (g : K),
    L.foldl (fun (st : ℕ × K) j => (st.1 + 1, st.2 + sol st.1 * F j n)) (h, g)
      = (h + L.length, g + combo sol (L.map F) h n) := by
  induction L with
  | nil => intro h g; simp [combo]
  | cons a L ih =>
    intro h g
    rw [List.foldl_cons, ih]
    simp only [combo, List.map_cons, List.zipIdx_cons, List.sum_cons, List.length_cons]
    refine Prod.ext (by simp; ring) (by simp; ring)

theorem findGLoop_eq (sol : ℕ → K) (n : ℤ) (roots : List (K × ℕ)) : ∀ (h : ℕ) (g : K),
    findGLoop sol n roots h g = g + combo sol (gBasis roots) h n := by
  induction roots with
  | nil => intro h g; simp [findGLoop, gBasis, combo]
  | cons r rs ih =>
    intro h g
    unfold findGLoop
    have e : (fun (st : ℕ × K) j => (st.1 + 1, st.2 + sol st.1 * (n : K) ^ j * r.1 ^ n))
        = (fun (st : ℕ × K) (j : ℕ) => (st.1 + 1, st.2 + sol st.1 * (fun j (n : ℤ) => (n : K) ^ j * r.1 ^ n) j n)) := by
      funext st j; simp only [mul_assoc]
    have e3 := inner_loop sol n (fun j (n : ℤ) => (n : K) ^ j * r.1 ^ n) (List.range r.2).reverse h g
    rw [e]
    dsimp only at e3 ⊢
    rw [e3, ih]
    have e2 : gBasis (r :: rs) = ((List.range r.2).reverse.map fun j => fun (n : ℤ) => (n : K) ^ j * r.1 ^ n) ++ gBasis rs := by
      simp [gBasis]
    rw [e2, combo_append, List.length_map, add_assoc]

theorem combo_hom {R : LinRec K} (sol : ℕ → K) (l : List (ℤ → K)) (hl : ∀ b ∈ l, Hom R b) (h : ℕ) :
    Hom R (combo sol l h) := by
  induction l generalizing h with
  | nil =>
    have : combo sol ([] : List (ℤ → K)) h = fun _ => 0 := by funext n; simp [combo]
    rw [this]; exact hom_zero
  | cons b l ih =>
    have : combo sol (b :: l) h = fun n => sol h * b n + combo sol l (h + 1) n := by
      funext n; simp [combo, List.zipIdx_cons, mul_comm]
    rw [this]
    exact hom_add (hom_smul _ (hl b (by simp))) (ih (fun b hb => hl b (by simp [hb])) _)

theorem gBasis_hom {R : LinRec K} {roots : List (K × ℕ)} (hr : AreRoots R roots) (hk : 1 ≤ R.k)
    (ha : R.a R.k ≠ 0) (l : List (K × ℕ)) (hl : ∀ r ∈ l, r ∈ roots) : ∀ b ∈ gBasis l, Hom R b := by
  intro b hb
  unfold gBasis at hb
  rw [List.mem_flatMap] at hb
  obtain ⟨r, hr1, hb⟩ := hb
  rw [List.mem_map] at hb
  obtain ⟨j, hj, rfl⟩ := hb
  exact hom_root hr hk ha (hl r hr1) (by simpa using hj)

theorem sysRow_multiple (k : ℕ) (roots : List (K × ℕ)) (hm : ∀ r ∈ roots, 1 ≤ r.2) (h : ℕ) :
    sysRow false k roots h = (gBasis roots.reverse).map fun b => b h := by
  unfold sysRow gBasis
  rw [if_neg (by simp), List.map_flatMap]
  have : ∀ l : List (K × ℕ), (∀ r ∈ l, 1 ≤ r.2) →
      (l.flatMap fun r => ((List.range (r.2 - 1)).reverse.map fun j => (h : K) ^ (j + 1) * r.1 ^ h) ++ [r.1 ^ h])
      = l.flatMap fun r => List.map (fun b : ℤ → K => b h)
          ((List.range r.2).reverse.map fun j => fun n => (n : K) ^ j * r.1 ^ n) := by
    intro l
    induction l with
    | nil => simp
    | cons r l ih =>
      intro hl
      rw [List.flatMap_cons, List.flatMap_cons, ih fun r hr => hl r (by simp [hr])]
      congr 1
      obtain ⟨m, e⟩ : ∃ m, r.2 = m + 1 := ⟨r.2 - 1, by have := hl r (by simp); omega⟩
      rw [e, List.range_succ_eq_map]
      simp
  exact this _ fun r hr => hm r (by simpa using hr)

theorem charPoly_natDegree (R : LinRec K) : (charPoly R).natDegree = R.k ∧ (charPoly R).Monic := by
  have hd : (∑ j ∈ range R.k, C (R.a (j + 1)) * X ^ (R.k - (j + 1)) : K[X]).degree < R.k := by
    refine lt_of_le_of_lt (degree_sum_le _ _) ?_
    rw [Finset.sup_lt_iff (WithBot.bot_lt_coe _)]
    intro j hj
    rw [mem_range] at hj
    refine lt_of_le_of_lt (degree_C_mul_X_pow_le _ _) ?_
    exact_mod_cast (show R.k - (j + 1) < R.k by omega)
  have hm : (charPoly R).Monic := monic_X_pow_sub hd
  refine ⟨?_, hm⟩
  have : (charPoly R).degree = R.k := by
    unfold charPoly
    rw [degree_sub_eq_left_of_degree_lt (by rw [degree_X_pow]; exact hd), degree_X_pow]
  exact natDegree_eq_of_degree_eq_some this

theorem rootsOrder_eq (roots : List (K × ℕ)) : rootsOrder roots = (roots.map Prod.snd).sum := by
  unfold rootsOrder
  induction roots with
  | nil => rfl
  | cons r l ih => simp only [List.foldr_cons, List.map_cons, List.sum_cons, ih]; omega

/-- The multiplicities add up to the order of the recurrence. -/
theorem order_eq {R : LinRec K} {roots : List (K × ℕ)} (hr : AreRoots R roots) :
    (roots.map Prod.snd).sum = R.k := by
  have h := (charPoly_natDegree R).1
  have hp : ∀ l : List (K × ℕ), ((l.map fun r => (X - C r.1) ^ r.2).prod : K[X]).natDegree
      = (l.map Prod.snd).sum ∧ ((l.map fun r => (X - C r.1) ^ r.2).prod : K[X]).Monic := by
    intro l
    induction l with
    | nil => simp
    | cons r l ih =>
      have m1 : ((X - C r.1) ^ r.2 : K[X]).Monic := (monic_X_sub_C _).pow _
      simp only [List.map_cons, List.prod_cons, List.sum_cons]
      refine ⟨?_, m1.mul ih.2⟩
      rw [m1.natDegree_mul ih.2, ih.1, (monic_X_sub_C _).natDegree_pow, natDegree_X_sub_C, mul_one]
  rw [hr, (hp roots).1] at h
  exact h

theorem findG_distinct (sol : ℕ → K) (roots : List (K × ℕ)) (hm : ∀ r ∈ roots, r.2 = 1) (n : ℤ) :
    findG true sol roots n = combo sol (roots.map fun r => fun (n : ℤ) => r.1 ^ n) 0 n := by
  unfold findG
  rw [if_pos rfl, foldl_add_sum, zero_add, rootsOrder_eq]
  have e : (roots.map Prod.snd).sum = roots.length := by
    induction roots with
    | nil => rfl
    | cons r l ih =>
      simp only [List.map_cons, List.sum_cons, List.length_cons, hm r (by simp),
        ih fun r hr => hm r (by simp [hr])]; omega
  rw [e]
  unfold combo
  congr 1
  apply List.ext_getElem
  · simp
  · intro i h1 h2
    simp at h1
    simp [h1, mul_comm]

/-- `solve_system` and `find_g_n` compute the fundamental solution, for simple and for multiple
roots. -/
theorem C31_fundamental (R : LinRec K) (roots : List (K × ℕ)) (allDistinct : Bool) (sol : ℕ → K)
    (hk : 1 ≤ R.k) (ha : R.a R.k ≠ 0) (hr : AreRoots R roots) (hm : ∀ r ∈ roots, 1 ≤ r.2)
    (hd : allDistinct = true → ∀ r ∈ roots, r.2 = 1)
    (hsol : SysSolved allDistinct R roots sol) :
    Fundamental R (findG allDistinct sol roots) := by
  have hlen := order_eq hr
  -- `findG` is the combination of the basis and takes the prescribed values
  have hb : ∃ B : List (ℤ → K), (∀ b ∈ B, Hom R b) ∧ (∀ n, findG allDistinct sol roots n = combo sol B 0 n) ∧
      ∀ h : ℕ, sysRow allDistinct R.k roots h = B.map fun b => b h := by
    cases allDistinct with
    | true =>
      have h1 := hd rfl
      refine ⟨roots.map fun r => fun (n : ℤ) => r.1 ^ n, ?_, findG_distinct sol roots h1, ?_⟩
      · intro b hb
        rw [List.mem_map] at hb
        obtain ⟨r, hr1, rfl⟩ := hb
        have := hom_root hr hk ha hr1 (j := 0) (by rw [h1 r hr1]; omega)
        simpa using this
      · intro h
        unfold sysRow
        rw [if_pos rfl]
        have e : R.k = roots.length := by
          rw [← hlen]
          clear hlen hsol hr hd hm
          induction roots with
          | nil => rfl
          | cons r l ih =>
            simp only [List.map_cons, List.sum_cons, List.length_cons, h1 r (by simp),
              ih fun r hr => h1 r (by simp [hr])]; omega
        apply List.ext_getElem
        · simp [e]
        · intro i h1 h2
          simp [e] at h1
          simp [h1]
    | false =>
      refine ⟨gBasis roots.reverse, gBasis_hom hr hk ha _ (by simp), ?_, sysRow_multiple _ _ hm⟩
      intro n
      unfold findG
      rw [if_neg (by simp), findGLoop_eq, zero_add]
  obtain ⟨B, hB, hG, hrow⟩ := hb
  have hval : ∀ h : ℕ, h < R.k → findG allDistinct sol roots (h : ℤ) = (sysRhs R.a R.k).getD h 0 := by
    intro h hh
    rw [← hsol h hh, hG, hrow]
    unfold combo
    rw [List.zipIdx_map, List.map_map]
    rfl
  refine ⟨?_, ?_, ?_⟩
  · have : findG allDistinct sol roots = combo sol B 0 := funext hG
    rw [this]
    exact combo_hom sol B hB 0
  · have := hval 0 (by omega)
    rw [Nat.cast_zero] at this
    rw [this]
    exact (sysRhs_spec R.a R.k 0 (by omega)).1 rfl
  · intro i h1 h2
    rw [hval i h2, (sysRhs_spec R.a R.k i h2).2 h1]
    refine sum_congr rfl fun j hj => ?_
    rw [mem_range] at hj
    have : (i : ℤ) - ((j : ℤ) + 1) = ((i - (j + 1) : ℕ) : ℤ) := by
      push_cast [Nat.cast_sub (show j + 1 ≤ i by omega)]; ring
    rw [this, hval _ (by omega)]

/-- The solution of the old method (orders `≥ 3`, or order 2 with a double root) is the sequence
itself from the first valid index on, for every inhomogeneous term. -/
theorem C31_old_method (R : LinRec K) (roots : List (K × ℕ)) (allDistinct : Bool) (sol : ℕ → K)
    (hk : 1 ≤ R.k) (ha : R.a R.k ≠ 0) (hr : AreRoots R roots) (hm : ∀ r ∈ roots, 1 ≤ r.2)
    (hd : allDistinct = true → ∀ r ∈ roots, r.2 = 1)
    (hsol : SysSolved allDistinct R roots sol) (x : ℤ → K) (hx : Solves R x) :
    ∀ n : ℤ, (R.f : ℤ) ≤ n → oldSolution allDistinct R roots sol x n = x n :=
  fundamental_method hk ha (C31_fundamental R roots allDistinct sol hk ha hr hm hd hsol) x hx

/-- Order 2 with distinct roots: the closed form of `g_n` is the fundamental solution. -/
theorem g2_fundamental (R : LinRec K) (r1 r2 : K) (hk : R.k = 2) (ha : R.a 2 ≠ 0) (h12 : r1 ≠ r2)
    (hr : AreRoots R [(r1, 1), (r2, 1)]) : Fundamental R (g2 r1 r2) := by
  have hd : r1 - r2 ≠ 0 := sub_ne_zero.mpr h12
  have ha' : R.a R.k ≠ 0 := by rw [hk]; exact ha
  have n1 : r1 ≠ 0 := root_ne_zero hr (by omega) ha' (r := (r1, 1)) (by simp) (by simp)
  have n2 : r2 ≠ 0 := root_ne_zero hr (by omega) ha' (r := (r2, 1)) (by simp) (by simp)
  have e1 : r1 + r2 = R.a 1 := by
    have := congrArg (fun p => coeff p 1) hr
    simp only [charPoly, hk, sum_range_succ, range_zero, sum_empty, zero_add, List.map_cons, List.map_nil,
      List.prod_cons, List.prod_nil, pow_one, mul_one] at this
    have h : (X - C r1) * (X - C r2) = X ^ 2 - C (r1 + r2) * X + C (r1 * r2) := by
      simp only [map_add, map_mul]; ring
    rw [h] at this
    simp [coeff_C] at this
    linear_combination this
  have hh : Hom R (g2 r1 r2) := by
    have h1 := hom_root hr (by omega) ha' (r := (r1, 1)) (by simp) (j := 0) (by simp)
    have h2 := hom_root hr (by omega) ha' (r := (r2, 1)) (by simp) (j := 0) (by simp)
    have := hom_add (hom_smul (r1 / (r1 - r2)) h1) (hom_smul (-(r2 / (r1 - r2))) h2)
    refine cast (congrArg _ ?_) this
    funext n
    simp only [g2, pow_zero, one_mul, zpow_add₀ n1, zpow_add₀ n2, zpow_one]
    ring
  refine ⟨hh, ?_, ?_⟩
  · simp only [g2, zero_add, zpow_one]
    exact div_self hd
  · intro i h1 h2
    obtain rfl : i = 1 := by omega
    rw [sum_range_one]
    simp only [g2, Nat.cast_one, zero_add, Nat.cast_zero, sub_self, zpow_one]
    rw [div_self hd, mul_one, div_eq_iff hd, ← e1]
    rw [show (1 : ℤ) + 1 = ((2 : ℕ) : ℤ) by norm_num, zpow_natCast, zpow_natCast]
    ring

/-- Order 2 with distinct roots, old method: the solution is the sequence itself. -/
theorem C31_old_method_order2 (R : LinRec K) (r1 r2 : K) (hk : R.k = 2) (ha : R.a 2 ≠ 0) (h12 : r1 ≠ r2)
    (hr : AreRoots R [(r1, 1), (r2, 1)]) (x : ℤ → K) (hx : Solves R x) :
    ∀ n : ℤ, (R.f : ℤ) ≤ n → oldSolution2 R r1 r2 x n = x n := by
  intro n hn
  have ha' : R.a R.k ≠ 0 := by rw [hk]; exact ha
  have n1 : r1 ≠ 0 := root_ne_zero hr (by omega) ha' (r := (r1, 1)) (by simp) (by simp)
  have n2 : r2 ≠ 0 := root_ne_zero hr (by omega) ha' (r := (r2, 1)) (by simp) (by simp)
  rw [← fundamental_method (by omega) ha' (g2_fundamental R r1 r2 hk ha h12 hr) x hx n hn]
  unfold oldSolution2
  congr 1
  unfold sum2 convolution
  rw [hk, mul_sum, mul_sum, ← sum_sub_distrib, mul_sum]
  push_cast
  refine sum_congr rfl fun h _ => ?_
  have q1 : r1 ^ (n - h + 1) = r1 ^ (n + 1) * r1 ^ (-h) := by rw [← zpow_add₀ n1]; congr 1; ring
  have q2 : r2 ^ (n - h + 1) = r2 ^ (n + 1) * r2 ^ (-h) := by rw [← zpow_add₀ n2]; congr 1; ring
  rw [g2, q1, q2]
  ring

end Purrs.Exact
