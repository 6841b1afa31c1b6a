import Verif.Model.Exact
import Mathlib.Algebra.Polynomial.AlgebraMap
import Mathlib.Algebra.Polynomial.Taylor
import Mathlib.Algebra.Order.Ring.Int
import Mathlib.Algebra.Polynomial.Eval.Degree
import Mathlib.Tactic.Ring
import Mathlib.Tactic.LinearCombination

set_option linter.unusedSectionVars false

/-!
# Linear recurrences: specification and the algebra behind the closed forms
-/

namespace Purrs.Exact

open Polynomial Finset

variable {K : Type} [Field K]

/-- The sequence `x` satisfies the recurrence: at every index from `f + k` on,
`x n = a 1 * x (n-1) + ... + a k * x (n-k) + p n`. -/
def Solves (R : LinRec K) (x : ℤ → K) : Prop :=
  ∀ n : ℤ, (R.f : ℤ) + R.k ≤ n →
    x n = (∑ j ∈ range R.k, R.a (j + 1) * x (n - ((j : ℤ) + 1))) + R.p n

/-- The characteristic polynomial `X^k - a 1 X^(k-1) - ... - a k`. -/
noncomputable def charPoly (R : LinRec K) : K[X] :=
  X ^ R.k - ∑ j ∈ range R.k, C (R.a (j + 1)) * X ^ (R.k - (j + 1))

/-- `roots` lists the roots of the characteristic polynomial with their multiplicities. -/
def AreRoots (R : LinRec K) (roots : List (K × ℕ)) : Prop :=
  charPoly R = (roots.map fun r => (X - C r.1) ^ r.2).prod

/-- A sequence satisfying the recurrence is determined by its first `k` values. -/
theorem solves_unique {R : LinRec K} {x y : ℤ → K} (hx : Solves R x) (hy : Solves R y)
    (h0 : ∀ i < R.k, x ((R.f : ℤ) + i) = y ((R.f : ℤ) + i)) :
    ∀ n : ℤ, (R.f : ℤ) ≤ n → x n = y n := by
  have key : ∀ m : ℕ, x ((R.f : ℤ) + m) = y ((R.f : ℤ) + m) := by
    intro m
    induction m using Nat.strong_induction_on with
    | _ m ih =>
      by_cases hm : m < R.k
      · exact h0 m hm
      · rw [hx _ (by omega), hy _ (by omega)]
        congr 1
        refine sum_congr rfl fun j hj => ?_
        rw [mem_range] at hj
        have := ih (m - (j + 1)) (by omega)
        have e : (R.f : ℤ) + m - ((j : ℤ) + 1) = (R.f : ℤ) + ((m - (j + 1) : ℕ) : ℤ) := by
          have : j + 1 ≤ m := by omega
          push_cast [Nat.cast_sub this]; ring
        rw [e, this]
  intro n hn
  have := key (n - R.f).toNat
  rwa [show (R.f : ℤ) + ((n - R.f).toNat : ℤ) = n by omega] at this

/-- Homogeneous solutions on all of `ℤ`. -/
def Hom (R : LinRec K) (g : ℤ → K) : Prop :=
  ∀ n : ℤ, g n = ∑ j ∈ range R.k, R.a (j + 1) * g (n - ((j : ℤ) + 1))

theorem hom_zero {R : LinRec K} : Hom R (fun _ => 0) := by intro n; simp

theorem hom_add {R : LinRec K} {g h : ℤ → K} (hg : Hom R g) (hh : Hom R h) :
    Hom R (fun n => g n + h n) := by
  intro n
  simp only [mul_add, sum_add_distrib]
  rw [← hg n, ← hh n]

theorem hom_smul {R : LinRec K} {g : ℤ → K} (c : K) (hg : Hom R g) :
    Hom R (fun n => c * g n) := by
  intro n
  dsimp only
  rw [hg n, mul_sum]
  exact sum_congr rfl fun j _ => by ring

theorem hom_shift {R : LinRec K} {g : ℤ → K} (d : ℤ) (hg : Hom R g) :
    Hom R (fun n => g (n - d)) := by
  intro n
  dsimp only
  rw [hg (n - d)]
  exact sum_congr rfl fun j _ => by congr 2; ring

/-! ## The shift operator -/

/-- The forward shift on sequences. -/
def shiftE : (ℤ → K) →ₗ[K] (ℤ → K) where
  toFun s := fun n => s (n + 1)
  map_add' _ _ := rfl
  map_smul' _ _ := rfl

theorem shiftE_pow (m : ℕ) (s : ℤ → K) (n : ℤ) : ((shiftE : (ℤ → K) →ₗ[K] (ℤ → K)) ^ m) s n = s (n + m) := by
  induction m generalizing n with
  | zero => simp
  | succ m ih =>
    rw [pow_succ', Module.End.mul_apply]
    show ((shiftE ^ m) s) (n + 1) = _
    rw [ih]; congr 1; push_cast; ring

theorem aeval_charPoly (R : LinRec K) (s : ℤ → K) (n : ℤ) :
    (aeval (shiftE : (ℤ → K) →ₗ[K] (ℤ → K)) (charPoly R)) s n
      = s (n + R.k) - ∑ j ∈ range R.k, R.a (j + 1) * s (n + R.k - ((j : ℤ) + 1)) := by
  unfold charPoly
  rw [map_sub, map_sum, map_pow, aeval_X, LinearMap.sub_apply, LinearMap.sum_apply]
  rw [Pi.sub_apply, Finset.sum_apply, shiftE_pow]
  congr 1
  refine sum_congr rfl fun j hj => ?_
  rw [mem_range] at hj
  rw [map_mul, map_pow, aeval_X, aeval_C, Module.End.mul_apply]
  show (R.a (j + 1)) • ((shiftE ^ (R.k - (j + 1))) s n) = _
  rw [shiftE_pow, smul_eq_mul]
  congr 2
  push_cast [Nat.cast_sub (show j + 1 ≤ R.k by omega)]; ring

theorem hom_of_aeval {R : LinRec K} {s : ℤ → K}
    (h : aeval (shiftE : (ℤ → K) →ₗ[K] (ℤ → K)) (charPoly R) s = 0) : Hom R s := by
  intro n
  have := congrFun h (n - R.k)
  rw [aeval_charPoly] at this
  simp only [sub_add_cancel, Pi.zero_apply] at this
  exact sub_eq_zero.mp this

/-- The sequence `q(n) * b^n`. -/
def polyExp (q : K[X]) (b : K) : ℤ → K := fun n => q.eval (n : K) * b ^ n

theorem shift_sub_polyExp {b : K} (hb : b ≠ 0) (q : K[X]) :
    ((shiftE : Module.End K (ℤ → K)) - algebraMap K (Module.End K (ℤ → K)) b) (polyExp q b)
      = polyExp (C b * (taylor 1 q - q)) b := by
  funext n
  show polyExp q b (n + 1) - b * polyExp q b n = _
  unfold polyExp
  rw [eval_mul, eval_C, eval_sub, taylor_eval, zpow_add₀ hb, zpow_one]
  push_cast
  ring_nf

theorem degree_diff_lt {q : K[X]} (hq : q ≠ 0) : (taylor 1 q - q).degree < q.degree := by
  have := degree_sub_lt_left (p := taylor 1 q) (q := q) (by rw [degree_taylor])
    (by rw [Ne, taylor_eq_zero]; exact hq) (by rw [leadingCoeff_taylor])
  rwa [degree_taylor] at this

theorem kill_polyExp {b : K} (hb : b ≠ 0) (m : ℕ) :
    ∀ q : K[X], q.degree < m →
      (aeval (shiftE : (ℤ → K) →ₗ[K] (ℤ → K)) ((X - C b) ^ m)) (polyExp q b) = 0 := by
  induction m with
  | zero =>
    intro q hq
    have : q = 0 := by
      rw [← degree_eq_bot]
      exact Nat.WithBot.lt_zero_iff.mp hq
    subst this
    funext n; simp [polyExp]
  | succ m ih =>
    intro q hq
    rw [pow_succ, map_mul, Module.End.mul_apply, map_sub, aeval_X, aeval_C, shift_sub_polyExp hb]
    apply ih
    by_cases h0 : q = 0
    · subst h0; simp
    · rw [degree_C_mul hb]
      have h1 := degree_diff_lt h0
      rw [degree_eq_natDegree h0] at h1 hq
      have h2 : q.natDegree ≤ m := by
        have : q.natDegree < m + 1 := by exact_mod_cast hq
        omega
      exact lt_of_lt_of_le h1 (by exact_mod_cast h2)

theorem root_ne_zero {R : LinRec K} {roots : List (K × ℕ)} (hr : AreRoots R roots) (hk : 1 ≤ R.k)
    (ha : R.a R.k ≠ 0) {r : K × ℕ} (h : r ∈ roots) (hm : 1 ≤ r.2) : r.1 ≠ 0 := by
  intro h0
  have e : (charPoly R).eval 0 = - R.a R.k := by
    obtain ⟨m, hm⟩ : ∃ m, R.k = m + 1 := ⟨R.k - 1, by omega⟩
    unfold charPoly
    rw [hm, eval_sub, eval_finsetSum, sum_range_succ]
    rw [sum_eq_zero]
    · simp
    · intro j hj
      rw [mem_range] at hj
      rw [eval_mul, eval_pow, eval_X, zero_pow (by omega), mul_zero]
  have : (charPoly R).eval 0 = 0 := by
    rw [hr, eval_list_prod]
    apply List.prod_eq_zero
    rw [List.map_map, List.mem_map]
    refine ⟨r, h, ?_⟩
    simp [h0, zero_pow (show r.2 ≠ 0 by omega)]
  rw [e] at this
  exact ha (by simpa using this)

/-- `n^j * r^n` is a homogeneous solution for every `j` below the multiplicity of the root `r`. -/
theorem hom_root {R : LinRec K} {roots : List (K × ℕ)} (hr : AreRoots R roots) (hk : 1 ≤ R.k)
    (ha : R.a R.k ≠ 0) {r : K × ℕ} (h : r ∈ roots) {j : ℕ} (hj : j < r.2) :
    Hom R (fun n => (n : K) ^ j * r.1 ^ n) := by
  have hb := root_ne_zero hr hk ha h (by omega)
  apply hom_of_aeval
  rw [hr]
  obtain ⟨l1, l2, e⟩ := List.append_of_mem h
  have : (roots.map fun r => (X - C r.1) ^ r.2).prod
      = ((l1.map fun r => (X - C r.1) ^ r.2).prod * (l2.map fun r => (X - C r.1) ^ r.2).prod)
        * (X - C r.1) ^ r.2 := by
    rw [e]; simp only [List.map_append, List.map_cons, List.prod_append, List.prod_cons]; ring
  rw [this, map_mul, Module.End.mul_apply]
  have e2 : (fun n : ℤ => (n : K) ^ j * r.1 ^ n) = polyExp (X ^ j) r.1 := by
    funext n; simp [polyExp]
  rw [e2, kill_polyExp hb r.2 _ (by rw [degree_X_pow]; exact_mod_cast hj), map_zero]

end Purrs.Exact
