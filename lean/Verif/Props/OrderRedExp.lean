import Verif.Props.OrderRed
import Verif.Props.SumPoly
import Verif.Props.AlgEqBinomial

/-!
# C30: the expanded solution

`write_expanded_solution` replaces `mod(n, g)` and `x(mod(n, g) + h g)` by combinations of powers of the roots
of unity.  The specification: the value at every natural number `n` does not change.
-/

set_option linter.unusedSectionVars false

namespace Purrs.OrderRed

open Purrs Finset
open Function (update update_of_ne update_self update_comm)

/-- The interpretation reads `Pi`, `I`, `cos`, `sin` and, on natural numbers, `mod` as usual. -/
structure Std (I : Interp ℂ) : Prop where
  pi : I.const "Pi" = (Real.pi : ℂ)
  i : I.const "I" = Complex.I
  cos : ∀ z, I.fn .cos [z] = Complex.cos z
  sin : ∀ z, I.fn .sin [z] = Complex.sin z
  mod : ∀ N g : ℕ, I.fn .mod [(N : ℂ), (g : ℂ)] = ((N % g : ℕ) : ℂ)

/-- The primitive root of unity. -/
noncomputable def om (g : ℕ) : ℂ := Complex.exp (2 * Real.pi * Complex.I / g)

theorem om_prim {g : ℕ} (hg : g ≠ 0) : IsPrimitiveRoot (om g) g := Complex.isPrimitiveRoot_exp g hg

theorem om_ne_zero (g : ℕ) : om g ≠ 0 := Complex.exp_ne_zero _

/-- Sum of the powers of a root of unity. -/
theorem sum_roots {g : ℕ} (hg : g ≠ 0) (d : ℤ) :
    ∑ j ∈ range g, ((om g) ^ (j + 1)) ^ d = if (g : ℤ) ∣ d then (g : ℂ) else 0 := by
  have h1 : ∀ j : ℕ, ((om g) ^ (j + 1)) ^ d = ((om g) ^ d) * ((om g) ^ d) ^ j := by
    intro j
    rw [← pow_succ', ← zpow_natCast, ← zpow_natCast, ← zpow_mul, ← zpow_mul, mul_comm]
  simp only [h1]
  rw [← mul_sum]
  by_cases h : (g : ℤ) ∣ d
  · rw [if_pos h, ((om_prim hg).zpow_eq_one_iff_dvd d).mpr h]
    simp
  · rw [if_neg h]
    have hne : (om g) ^ d ≠ 1 := fun e => h (((om_prim hg).zpow_eq_one_iff_dvd d).mp e)
    have : ((om g) ^ d) ^ g = 1 := by
      rw [← zpow_natCast, ← zpow_mul, mul_comm, zpow_mul, zpow_natCast, (om_prim hg).pow_eq_one, one_zpow]
    rw [geom_sum_eq hne, this]
    simp

/-- The value of `to_sub_in_solution` at `N`. -/
noncomputable def modSum (g N : ℕ) : ℂ :=
  ∑ j ∈ range (g - 1), (om g) ^ (j + 1) * (1 - (om g) ^ (j + 1))⁻¹ * ((om g) ^ (j + 1)) ^ N

theorem om_pow_ne {g j : ℕ} (hg : g ≠ 0) (hj : j < g - 1) : 1 - (om g) ^ (j + 1) ≠ 0 := by
  intro e
  have h := (om_prim hg).pow_eq_one_iff_dvd (j + 1) |>.mp (sub_eq_zero.mp e).symm
  have := Nat.le_of_dvd (by omega) h
  omega

theorem modSum_zero {g : ℕ} (hg : g ≠ 0) : modSum g 0 + 1 / 2 * ((g : ℂ) - 1) = 0 := by
  have h1 : modSum g 0 = ∑ j ∈ range (g - 1), (om g) ^ (j + 1) * (1 - (om g) ^ (j + 1))⁻¹ := by
    unfold modSum
    exact sum_congr rfl fun j _ => by simp
  have h2 : modSum g 0 = ∑ j ∈ range (g - 1), (om g) ^ (g - 1 - 1 - j + 1) * (1 - (om g) ^ (g - 1 - 1 - j + 1))⁻¹ := by
    rw [h1, ← sum_range_reflect]
  have h3 : modSum g 0 + modSum g 0 = ∑ j ∈ range (g - 1), (-1 : ℂ) := by
    have h0 : modSum g 0 + modSum g 0 = (∑ j ∈ range (g - 1), (om g) ^ (g - 1 - 1 - j + 1) * (1 - (om g) ^ (g - 1 - 1 - j + 1))⁻¹)
        + ∑ j ∈ range (g - 1), (om g) ^ (j + 1) * (1 - (om g) ^ (j + 1))⁻¹ := by rw [← h1, ← h2]
    rw [h0, ← sum_add_distrib]
    refine sum_congr rfl fun j hj => ?_
    rw [mem_range] at hj
    have e : g - 1 - 1 - j + 1 = g - (j + 1) := by omega
    rw [e]
    have hprod : (om g) ^ (g - (j + 1)) * (om g) ^ (j + 1) = 1 := by
      rw [← pow_add, show g - (j + 1) + (j + 1) = g by omega, (om_prim hg).pow_eq_one]
    have n1 := om_pow_ne hg hj
    have n2 : 1 - (om g) ^ (g - (j + 1)) ≠ 0 := by
      have := om_pow_ne hg (j := g - 1 - 1 - j) (by omega)
      rwa [e] at this
    generalize (om g) ^ (g - (j + 1)) = a at *
    generalize (om g) ^ (j + 1) = b at *
    field_simp
    linear_combination (-1 : ℂ) * hprod
  rw [sum_const, card_range, nsmul_eq_mul] at h3
  have h4 : ((g - 1 : ℕ) : ℂ) = (g : ℂ) - 1 := by
    rw [Nat.cast_sub (by omega)]; simp
  rw [h4] at h3
  linear_combination h3 / 2

/-- **C30**, the closed form of `mod`: `N mod g = (g-1)/2 + Σ ω_h/(1-ω_h) ω_h^N`. -/
theorem C30_mod_closed_form {g : ℕ} (hg : g ≠ 0) (N : ℕ) :
    modSum g N + 1 / 2 * ((g : ℂ) - 1) = ((N % g : ℕ) : ℂ) := by
  induction N with
  | zero => rw [modSum_zero hg]; simp
  | succ N ih =>
    have hgpos : 0 < g := Nat.pos_of_ne_zero hg
    have hdiff : modSum g (N + 1) - modSum g N = 1 - (if (g : ℤ) ∣ ((N + 1 : ℕ) : ℤ) then (g : ℂ) else 0) := by
      rw [← sum_roots hg]
      unfold modSum
      rw [← sum_sub_distrib]
      obtain ⟨k, rfl⟩ : ∃ k, g = k + 1 := ⟨g - 1, by omega⟩
      rw [Nat.add_sub_cancel, sum_range_succ (n := k), (om_prim hg).pow_eq_one, one_zpow]
      rw [show (1 : ℂ) - (∑ x ∈ range k, (om (k + 1) ^ (x + 1)) ^ ((N + 1 : ℕ) : ℤ) + 1)
        = ∑ x ∈ range k, -((om (k + 1) ^ (x + 1)) ^ ((N + 1 : ℕ) : ℤ)) by rw [sum_neg_distrib]; ring]
      refine sum_congr rfl fun j hj => ?_
      rw [mem_range] at hj
      have n1 := om_pow_ne hg (j := j) (by omega)
      rw [zpow_natCast]
      generalize om (k + 1) ^ (j + 1) = b at *
      field_simp
      ring
    have hmod : (((N + 1) % g : ℕ) : ℂ) = ((N % g : ℕ) : ℂ) + 1 - (if (g : ℤ) ∣ ((N + 1 : ℕ) : ℤ) then (g : ℂ) else 0) := by
      simp only [Int.natCast_dvd_natCast]
      have h1 : N % g < g := Nat.mod_lt _ hgpos
      have h2 : (N + 1) % g = (N % g + 1) % g := by rw [Nat.mod_add_mod]
      by_cases h : g ∣ N + 1
      · rw [if_pos h]
        have h3 : (N + 1) % g = 0 := Nat.mod_eq_zero_of_dvd h
        have h4 : N % g + 1 = g := by
          rw [h3] at h2
          have := Nat.dvd_of_mod_eq_zero h2.symm
          have := Nat.le_of_dvd (by omega) this
          omega
        rw [h3]
        have : ((N % g : ℕ) : ℂ) + 1 = g := by exact_mod_cast h4
        rw [this]; simp
      · rw [if_neg h]
        have h3 : N % g + 1 ≠ g := by
          intro e
          apply h
          rw [e, Nat.mod_self] at h2
          exact Nat.dvd_of_mod_eq_zero h2
        rw [h2, Nat.mod_eq_of_lt (by omega)]
        push_cast; ring
    rw [hmod, ← ih]
    linear_combination hdiff

/-! ### Values of the expressions -/

variable {I : Interp ℂ}

theorem eval_rootE (hI : Std I) (g j : ℕ) (ρ : String → ℂ) :
    eval I ρ (rootE g j) = (om g) ^ j := by
  unfold rootE thetaE
  rw [eval_addE, eval_mulE]
  simp only [eval, List.map_cons, List.map_nil, eval_mulE, hI.cos, hI.sin, hI.i, hI.pi]
  rw [show (om g) ^ j = Purrs.AlgEq.rootOfUnity g j from (Purrs.AlgEq.rootOfUnity_eq g j).symm]
  unfold Purrs.AlgEq.rootOfUnity
  have : ((j : ℚ) : ℂ) * (((2 : ℚ) : ℂ) * (Real.pi : ℂ) * (((1 : ℚ) / (g : ℚ) : ℚ) : ℂ))
      = (j : ℂ) * (2 * (Real.pi : ℂ) / g) := by push_cast; ring
  rw [this]

theorem eval_toSubE (hI : Std I) {g : ℕ} (hg : g ≠ 0) {n : String} {N : ℕ} {ρ : String → ℂ} (hN : ρ n = N) :
    eval I ρ (toSubE n g) = ((N % g : ℕ) : ℂ) := by
  rw [← C30_mod_closed_form hg N]
  unfold toSubE
  rw [eval_addE]
  congr 1
  · have hfold : ∀ (k : ℕ) (z : Expr), k ≤ g - 1 → eval I ρ ((List.range k).foldl (fun acc (i : ℕ) =>
        if i + 1 ≠ g then
          addE acc (mulE (mulE (rootE g (i + 1)) (powE (subE (.num 1) (rootE g (i + 1))) (.num (-1))))
            (powE (rootE g (i + 1)) (.sym n)))
        else acc) z) = eval I ρ z + ∑ j ∈ range k, (om g) ^ (j + 1) * (1 - (om g) ^ (j + 1))⁻¹ * ((om g) ^ (j + 1)) ^ N := by
      intro k z hk
      induction k with
      | zero => simp
      | succ k ih =>
        rw [List.range_succ, List.foldl_append, List.foldl_cons, List.foldl_nil, if_pos (by omega), eval_addE,
          ih (by omega), sum_range_succ, eval_mulE, eval_mulE, eval_powE, eval_powE, eval_rootE hI, eval_subE,
          eval_rootE hI]
        simp only [eval]
        rw [hN, pw_nat, show (((-1 : ℚ)) : ℂ) = ((-1 : ℤ) : ℂ) by push_cast; rfl, I.pw_int]
        simp
        ring
    obtain ⟨k, rfl⟩ : ∃ k, g = k + 1 := ⟨g - 1, by omega⟩
    rw [List.range_succ, List.foldl_append, List.foldl_cons, List.foldl_nil, if_neg (by simp), hfold k _ (by omega)]
    simp [eval, modSum]
  · simp [eval]

theorem eval_icE (hI : Std I) {g : ℕ} (hg : g ≠ 0) (h : ℕ) {n : String} {N : ℕ} {ρ : String → ℂ} (hN : ρ n = N) :
    eval I ρ (icE n g h) = I.fn .x [((N % g + h * g : ℕ) : ℂ)] := by
  unfold icE
  rw [eval_foldl_addE]
  simp only [eval_mulE, eval_foldl_addE, eval_powE, eval_rootE hI, eval_subE, eval, List.map_cons, List.map_nil]
  rw [list_sum_range]
  have hg' : (g : ℂ) ≠ 0 := by exact_mod_cast hg
  have hterm : ∀ i ∈ range g,
      (((0 : ℚ) : ℂ) + ((List.range g).map fun j => I.pw ((om g) ^ (j + 1)) (ρ n - (((i + h * g : ℕ) : ℚ) : ℂ))).sum)
        * I.fn .x [(((i + h * g : ℕ) : ℚ) : ℂ)] * (((1 : ℚ) / (g : ℚ) : ℚ) : ℂ)
      = if i = N % g then I.fn .x [((N % g + h * g : ℕ) : ℂ)] else 0 := by
    intro i hi
    rw [mem_range] at hi
    have e1 : ρ n - (((i + h * g : ℕ) : ℚ) : ℂ) = (((N : ℤ) - ((i + h * g : ℕ) : ℤ) : ℤ) : ℂ) := by
      rw [hN]; push_cast; ring
    rw [list_sum_range]
    simp only [e1, I.pw_int]
    rw [sum_roots hg]
    have hdvd : (g : ℤ) ∣ (N : ℤ) - ((i + h * g : ℕ) : ℤ) ↔ i = N % g := by
      have h1 : (N : ℤ) - ((i + h * g : ℕ) : ℤ) = ((N : ℤ) - (i : ℤ)) - g * h := by push_cast; ring
      rw [h1, dvd_sub_left (dvd_mul_right _ _)]
      rw [← Nat.modEq_iff_dvd]
      unfold Nat.ModEq
      rw [Nat.mod_eq_of_lt hi]
    by_cases hc : i = N % g
    · rw [if_pos (hdvd.mpr hc), if_pos hc, hc]
      push_cast
      field_simp
      simp
    · rw [if_neg (fun h => hc (hdvd.mp h)), if_neg hc]
      simp
  have e2 := sum_congr (rfl : range g = range g) hterm
  rw [e2, sum_ite_eq' (range g) (N % g), if_pos (mem_range.mpr (Nat.mod_lt _ (Nat.pos_of_ne_zero hg)))]
  simp

/-! ### Substitution under the hypothesis that `n` is a given number -/

/-- The summation indices are symbols different from `n`. -/
def idxNe (n : String) : Expr → Bool
  | .add l => (l.map fun a => idxNe n a).all id
  | .mul l => (l.map fun a => idxNe n a).all id
  | .pow b e => idxNe n b && idxNe n e
  | .fn _ l => (l.map fun a => idxNe n a).all id
  | .binder _ i lo up body =>
      (match i with | .sym s => decide (s ≠ n) | _ => false) && idxNe n lo && idxNe n up && idxNe n body
  | _ => true

theorem idxNe_of_nb {n : String} {e : Expr} (h : hasSumOrProd e = false) : idxNe n e = true := by
  induction e using Expr.ind with
  | num q => simp [idxNe]
  | const q => simp [idxNe]
  | sym s => simp [idxNe]
  | add l ih => simp [hasSumOrProd] at h; simp [idxNe]; exact fun a ha => ih a ha (h a ha)
  | mul l ih => simp [hasSumOrProd] at h; simp [idxNe]; exact fun a ha => ih a ha (h a ha)
  | pow b e hb he => simp [hasSumOrProd] at h; simp [idxNe]; exact ⟨hb h.1, he h.2⟩
  | fn f l ih => simp [hasSumOrProd] at h; simp [idxNe]; exact fun a ha => ih a ha (h a ha)
  | binder k i a b c => simp [hasSumOrProd] at h

theorem idxNe_addE {n : String} {a b : Expr} (ha : idxNe n a = true) (hb : idxNe n b = true) :
    idxNe n (addE a b) = true := by
  cases a <;> cases b <;> simp only [addE] <;> (try split) <;> simp_all [idxNe]

theorem idxNe_mulE {n : String} {a b : Expr} (ha : idxNe n a = true) (hb : idxNe n b = true) :
    idxNe n (mulE a b) = true := by
  cases a <;> cases b <;> simp only [mulE] <;> (try split) <;> (try split) <;> simp_all [idxNe]

theorem idxNe_powE {n : String} {a b : Expr} (ha : idxNe n a = true) (hb : idxNe n b = true) :
    idxNe n (powE a b) = true := by
  cases a <;> cases b <;> simp only [powE] <;> (try split) <;> (try split) <;> simp_all [idxNe]

/-- Replacing a subexpression by one of equal value, when both values are only known to agree for a fixed
value of `n`. -/
theorem substitute_on {n : String} {v : ℂ} {s r : Expr}
    (hs : ∀ ρ : String → ℂ, ρ n = v → eval I ρ s = eval I ρ r) (hsym : ∀ t, s ≠ .sym t)
    (hr : idxNe n r = true) {e : Expr} (he : idxNe n e = true) :
    idxNe n (substitute s r e) = true ∧
    ∀ ρ : String → ℂ, ρ n = v → eval I ρ (substitute s r e) = eval I ρ e := by
  induction e using Expr.ind with
  | num q => rw [substitute]; split <;> simp_all [idxNe]
  | const q => rw [substitute]; split <;> simp_all [idxNe]
  | sym t => rw [substitute]; split <;> simp_all [idxNe]
  | add l ih =>
    simp [idxNe] at he
    rw [substitute]
    split
    · rename_i h
      exact ⟨hr, fun ρ hρ => by rw [h, hs ρ hρ]⟩
    · constructor
      · have : ∀ m : List Expr, (∀ a ∈ m, a ∈ l) →
            idxNe n (m.foldr (fun a acc => addE acc (substitute s r a)) (.num 0)) = true := by
          intro m hm
          induction m with
          | nil => simp [idxNe]
          | cons a m ihm =>
            exact idxNe_addE (ihm fun b hb => hm b (List.mem_cons_of_mem _ hb))
              (ih a (hm a List.mem_cons_self) (he a (hm a List.mem_cons_self))).1
        exact this l fun a ha => ha
      · intro ρ hρ
        simp only [eval_foldr_addE, eval, Rat.cast_zero, zero_add]
        congr 1
        exact List.map_congr_left fun a ha => (ih a ha (he a ha)).2 ρ hρ
  | mul l ih =>
    simp [idxNe] at he
    rw [substitute]
    split
    · rename_i h
      exact ⟨hr, fun ρ hρ => by rw [h, hs ρ hρ]⟩
    · constructor
      · have : ∀ m : List Expr, (∀ a ∈ m, a ∈ l) →
            idxNe n (m.foldr (fun a acc => mulE acc (substitute s r a)) (.num 1)) = true := by
          intro m hm
          induction m with
          | nil => simp [idxNe]
          | cons a m ihm =>
            exact idxNe_mulE (ihm fun b hb => hm b (List.mem_cons_of_mem _ hb))
              (ih a (hm a List.mem_cons_self) (he a (hm a List.mem_cons_self))).1
        exact this l fun a ha => ha
      · intro ρ hρ
        simp only [eval_foldr_mulE, eval, Rat.cast_one, one_mul]
        congr 1
        exact List.map_congr_left fun a ha => (ih a ha (he a ha)).2 ρ hρ
  | pow b e ihb ihe =>
    simp [idxNe] at he
    rw [substitute]
    split
    · rename_i h
      exact ⟨hr, fun ρ hρ => by rw [h, hs ρ hρ]⟩
    · refine ⟨idxNe_powE (ihb he.1).1 (ihe he.2).1, fun ρ hρ => ?_⟩
      simp [eval_powE, eval, (ihb he.1).2 ρ hρ, (ihe he.2).2 ρ hρ]
  | fn f l ih =>
    simp [idxNe] at he
    simp only [substitute]
    split
    · rename_i h
      exact ⟨hr, fun ρ hρ => by rw [h, hs ρ hρ]⟩
    · refine ⟨by simp [idxNe]; exact fun a ha => (ih a ha (he a ha)).1, fun ρ hρ => ?_⟩
      simp only [eval, List.map_map]
      congr 1
      exact List.map_congr_left fun a ha => (ih a ha (he a ha)).2 ρ hρ
  | binder k i a b c hi ha hb hc =>
    cases i with
    | sym t =>
      simp [idxNe] at he
      obtain ⟨⟨⟨h1, h2⟩, h3⟩, h4⟩ := he
      have e1 : substitute s r (.sym t) = .sym t := by simp [substitute, Ne.symm (hsym t)]
      simp only [substitute]
      split
      · rename_i h
        exact ⟨hr, fun ρ hρ => by rw [h, hs ρ hρ]⟩
      · rw [if_neg (Ne.symm (hsym t))]
        refine ⟨by simp [idxNe, h1, (ha h2).1, (hb h3).1, (hc h4).1], fun ρ hρ => ?_⟩
        simp only [eval]
        rw [(ha h2).2 ρ hρ, (hb h3).2 ρ hρ]
        congr 1
        funext w
        exact (hc h4).2 _ (by simp only [bindIdx]; rw [update_of_ne (Ne.symm h1)]; exact hρ)
    | _ => simp [idxNe] at he

theorem nb_rootE (g j : ℕ) : hasSumOrProd (rootE g j) = false := by
  unfold rootE thetaE
  refine nb_addE ?_ (nb_mulE (by simp [hasSumOrProd]) ?_)
  · simp only [hasSumOrProd, List.map_cons, List.map_nil, List.any_cons, List.any_nil, Bool.or_false, id]
    exact nb_mulE (nb_num _) (nb_mulE (nb_mulE (nb_num _) (by simp [hasSumOrProd])) (nb_num _))
  · simp only [hasSumOrProd, List.map_cons, List.map_nil, List.any_cons, List.any_nil, Bool.or_false, id]
    exact nb_mulE (nb_num _) (nb_mulE (nb_mulE (nb_num _) (by simp [hasSumOrProd])) (nb_num _))

theorem nb_toSubE (n : String) (g : ℕ) : hasSumOrProd (toSubE n g) = false := by
  unfold toSubE
  refine nb_addE (nb_foldl _ _ _ (nb_num _) ?_) (nb_num _)
  intro q i hq _
  split_ifs
  · exact nb_addE hq (nb_mulE (nb_mulE (nb_rootE _ _) (nb_powE (nb_subE (nb_num _) (nb_rootE _ _)) (nb_num _)))
      (nb_powE (nb_rootE _ _) (nb_sym _)))
  · exact hq

theorem nb_icE (n : String) (g h : ℕ) : hasSumOrProd (icE n g h) = false := by
  unfold icE
  refine nb_foldl _ _ _ (nb_num _) ?_
  intro q i hq _
  refine nb_addE hq (nb_mulE (nb_mulE (nb_foldl _ _ _ (nb_num _) ?_) (by simp [hasSumOrProd])) (nb_num _))
  intro q j hq _
  exact nb_addE hq (nb_powE (nb_rootE _ _) (nb_subE (nb_sym _) (nb_num _)))

/-- The two parts of the split add up to the solution. -/
theorem splitIC_spec {n : String} {sol : Expr} {ρ : String → ℂ} (hs : idxNe n sol = true) :
    idxNe n (splitIC sol).1 = true ∧ idxNe n (splitIC sol).2 = true ∧
      eval I ρ (splitIC sol).1 + eval I ρ (splitIC sol).2 = eval I ρ sol := by
  have key : ∀ l : List Expr, (∀ a ∈ l, idxNe n a = true) →
      idxNe n (splitIC (.add l)).1 = true ∧ idxNe n (splitIC (.add l)).2 = true ∧
      eval I ρ (splitIC (.add l)).1 + eval I ρ (splitIC (.add l)).2 = eval I ρ (.add l) := by
    intro l hl
    induction l with
    | nil => simp [splitIC, idxNe, eval]
    | cons a l ih =>
      obtain ⟨i1, i2, i3⟩ := ih fun b hb => hl b (List.mem_cons_of_mem _ hb)
      have hsa := hl a List.mem_cons_self
      have e3 : eval I ρ (.add (a :: l)) = eval I ρ a + eval I ρ (.add l) := by simp [eval]
      have e4 : splitIC (.add (a :: l)) = if hasX a then (addE (splitIC (.add l)).1 a, (splitIC (.add l)).2)
          else ((splitIC (.add l)).1, addE (splitIC (.add l)).2 a) := by simp [splitIC]
      rw [e4]
      split_ifs
      · refine ⟨idxNe_addE i1 hsa, i2, ?_⟩
        rw [eval_addE, e3, ← i3]; ring
      · refine ⟨i1, idxNe_addE i2 hsa, ?_⟩
        rw [eval_addE, e3, ← i3]; ring
  have other : ∀ e : Expr, splitIC e = (e, .num 0) → idxNe n e = true →
      idxNe n (splitIC e).1 = true ∧ idxNe n (splitIC e).2 = true ∧
      eval I ρ (splitIC e).1 + eval I ρ (splitIC e).2 = eval I ρ e := by
    intro e he hi
    rw [he]
    exact ⟨hi, by simp [idxNe], by simp [eval]⟩
  cases sol with
  | add l => exact key l (by simpa [idxNe] using hs)
  | _ => exact other _ rfl hs

/-- **C30**, the expanded solution: replacing `mod(n, g)` and the initial conditions at `mod(n, g) + h g` by
combinations of roots of unity does not change the value of the solution at any natural number. -/
theorem C30_expanded_solution (hI : Std I) (n : String) (order g : ℕ) (hg : g ≠ 0) (sol : Expr)
    (hs : idxNe n sol = true) (N : ℕ) (ρ : String → ℂ) (hN : ρ n = N) :
    eval I ρ (writeExpanded n order g sol) = eval I ρ sol := by
  have hmodv : ∀ ρ : String → ℂ, ρ n = N → eval I ρ (modE n g) = ((N % g : ℕ) : ℂ) := by
    intro ρ hρ
    simp only [modE, eval, List.map_cons, List.map_nil, hρ]
    rw [← hI.mod N g]
    simp
  have hmod : ∀ ρ : String → ℂ, ρ n = N → eval I ρ (modE n g) = eval I ρ (toSubE n g) := by
    intro ρ hρ
    rw [hmodv ρ hρ, eval_toSubE hI hg hρ]
  have hx : ∀ (h : ℕ) (ρ : String → ℂ), ρ n = N →
      eval I ρ (.fn .x [addE (modE n g) (.num ((h * g : ℕ) : ℚ))]) = eval I ρ (icE n g h) := by
    intro h ρ hρ
    rw [eval_icE hI hg h hρ]
    simp only [eval, List.map_cons, List.map_nil, eval_addE, hmodv ρ hρ]
    push_cast
    rfl
  unfold writeExpanded
  dsimp only
  obtain ⟨s1, s2, s3⟩ := splitIC_spec (I := I) (ρ := ρ) hs
  generalize splitIC sol = st at *
  have hfold : ∀ k : ℕ, idxNe n ((List.range k).foldr (fun (h : ℕ) t =>
        substitute (.fn .x [addE (modE n g) (.num ((h * g : ℕ) : ℚ))]) (icE n g h) t) st.1) = true ∧
      ∀ t : Expr, idxNe n t = true →
      (idxNe n ((List.range k).foldr (fun (h : ℕ) t =>
        substitute (.fn .x [addE (modE n g) (.num ((h * g : ℕ) : ℚ))]) (icE n g h) t) t) = true ∧
      eval I ρ ((List.range k).foldr (fun (h : ℕ) t =>
        substitute (.fn .x [addE (modE n g) (.num ((h * g : ℕ) : ℚ))]) (icE n g h) t) t) = eval I ρ t) := by
    intro k
    have main : ∀ t : Expr, idxNe n t = true →
      (idxNe n ((List.range k).foldr (fun (h : ℕ) t =>
        substitute (.fn .x [addE (modE n g) (.num ((h * g : ℕ) : ℚ))]) (icE n g h) t) t) = true ∧
      eval I ρ ((List.range k).foldr (fun (h : ℕ) t =>
        substitute (.fn .x [addE (modE n g) (.num ((h * g : ℕ) : ℚ))]) (icE n g h) t) t) = eval I ρ t) := by
      induction k with
      | zero => intro t ht; exact ⟨ht, rfl⟩
      | succ k ih =>
        intro t ht
        rw [List.range_succ, List.foldr_append, List.foldr_cons, List.foldr_nil]
        obtain ⟨a1, a2⟩ := substitute_on (hx k) (by simp) (idxNe_of_nb (nb_icE n g k)) ht
        obtain ⟨b1, b2⟩ := ih _ a1
        exact ⟨b1, by rw [b2, a2 ρ hN]⟩
    exact ⟨(main st.1 s1).1, main⟩
  obtain ⟨_, hf⟩ := hfold (order / g)
  obtain ⟨f1, f2⟩ := hf st.1 s1
  obtain ⟨_, c2⟩ := substitute_on hmod (by simp [modE]) (idxNe_of_nb (nb_toSubE n g)) f1
  obtain ⟨_, d2⟩ := substitute_on hmod (by simp [modE]) (idxNe_of_nb (nb_toSubE n g)) s2
  rw [eval_addE, c2 ρ hN, d2 ρ hN, f2, s3]

/-- A complex interpretation in which `x(v)` is `ξ v`. -/
noncomputable def complexInterp (ξ : ℂ → ℂ) : Interp ℂ where
  const := fun c => if c = "Pi" then (Real.pi : ℂ) else if c = "I" then Complex.I else 0
  pw := fun a b => a ^ b
  fn := fun f l => match f, l with
    | .cos, [z] => Complex.cos z
    | .sin, [z] => Complex.sin z
    | .mod, [a, b] => ((⌊a.re⌋₊ % ⌊b.re⌋₊ : ℕ) : ℂ)
    | .x, [z] => ξ z
    | _, _ => 0
  bind := fun _ _ _ _ => 0
  pw_int := fun a z => Complex.cpow_intCast a z
  one_pw := fun a => Complex.one_cpow a

theorem complexInterp_std (ξ : ℂ → ℂ) : Std (complexInterp ξ) where
  pi := by simp [complexInterp]
  i := by simp [complexInterp]
  cos := fun z => rfl
  sin := fun z => rfl
  mod := fun N g => by simp [complexInterp]

/-- The hypotheses of `C30_expanded_solution` are met: `x(mod(n, 3)) + n mod(n, 3)` at `n = 7`, for the order
three recurrence `x(n) = x(n-3) + ...`. -/
example (ξ : ℂ → ℂ) (ρ : String → ℂ) : eval (complexInterp ξ) (update ρ "n" ((7 : ℕ) : ℂ))
    (writeExpanded "n" 3 3 (.add [.fn .x [modE "n" 3], .mul [.sym "n", modE "n" 3]])) = ξ 1 + 7 := by
  rw [C30_expanded_solution (complexInterp_std ξ) "n" 3 3 (by decide) _ (by simp [idxNe, modE]) 7 _
    (update_self ..)]
  simp [eval, modE, complexInterp]

end Purrs.OrderRed
