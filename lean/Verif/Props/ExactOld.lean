import Verif.Props.ExactCore
import Mathlib.Algebra.BigOperators.Intervals

set_option linter.unusedSectionVars false

/-!
# C31: the fundamental-solution method solves the recurrence
-/

namespace Purrs.Exact

open Polynomial Finset

variable {K : Type} [Field K]

/-- The fundamental solution of the recurrence `R`: homogeneous on `ℤ`, `g 0 = 1` and
`g i = a 1 * g (i-1) + ... + a i * g 0` for `1 ≤ i < k`. -/
def Fundamental (R : LinRec K) (g : ℤ → K) : Prop :=
  Hom R g ∧ g 0 = 1 ∧ ∀ i : ℕ, 1 ≤ i → i < R.k →
    g i = ∑ j ∈ range i, R.a (j + 1) * g ((i : ℤ) - ((j : ℤ) + 1))

theorem fundamental_neg {R : LinRec K} {g : ℤ → K} (ha : R.a R.k ≠ 0) (hg : Fundamental R g) :
    ∀ d : ℕ, 1 ≤ d → d < R.k → g (-(d : ℤ)) = 0 := by
  intro d
  induction d using Nat.strong_induction_on with
  | _ d ih =>
    intro h1 h2
    obtain ⟨hh, -, hi⟩ := hg
    have e1 := hi (R.k - d) (by omega) (by omega)
    have e2 := hh ((R.k - d : ℕ) : ℤ)
    rw [e1] at e2
    have hsplit : ∑ j ∈ range R.k, R.a (j + 1) * g (((R.k - d : ℕ) : ℤ) - ((j : ℤ) + 1))
        = (∑ j ∈ range (R.k - d), R.a (j + 1) * g (((R.k - d : ℕ) : ℤ) - ((j : ℤ) + 1)))
          + R.a R.k * g (-(d : ℤ)) := by
      rw [← sum_range_add_sum_Ico _ (show R.k - d ≤ R.k by omega)]
      congr 1
      rw [sum_eq_single (R.k - 1)]
      · have : R.k - 1 + 1 = R.k := by omega
        rw [this]
        congr 2
        push_cast [Nat.cast_sub (show d ≤ R.k by omega), Nat.cast_sub (show 1 ≤ R.k by omega)]; ring
      · intro j hj hne
        rw [mem_Ico] at hj
        have := ih (j + 1 - (R.k - d)) (by omega) (by omega) (by omega)
        have e : ((R.k - d : ℕ) : ℤ) - ((j : ℤ) + 1) = -((j + 1 - (R.k - d) : ℕ) : ℤ) := by
          push_cast [Nat.cast_sub (show R.k - d ≤ j + 1 by omega)]; ring
        rw [e, this, mul_zero]
      · intro h
        exact absurd (mem_Ico.mpr ⟨by omega, by omega⟩) h
    rw [hsplit] at e2
    have := left_eq_add.mp e2
    exact (mul_eq_zero.mp this).resolve_left ha

theorem termIC_eq (R : LinRec K) (g x : ℤ → K) (n : ℤ) :
    termIC R g x n = ∑ i ∈ range R.k,
      (x (R.f + i) - ∑ j ∈ range i, R.a (j + 1) * x (R.f + i - (j + 1))) * g (n - i - R.f) := by
  have h1 : ∀ (i : ℕ), (List.range i).foldr (fun (j : ℕ) tmp =>
      tmp - R.a (j + 1) * x (R.f + i - (j + 1))) (x (R.f + i))
      = x (R.f + i) - ∑ j ∈ range i, R.a (j + 1) * x (R.f + i - (j + 1)) := by
    intro i
    have : ∀ (l : List ℕ) (c : K) (F : ℕ → K), l.foldr (fun j tmp => tmp - F j) c
        = c - (l.map F).sum := by
      intro l c F
      induction l with
      | nil => simp
      | cons a l ih => simp only [List.foldr_cons, List.map_cons, List.sum_cons, ih]; ring
    rw [this _ _ (fun j => R.a (j + 1) * x (R.f + i - (j + 1)))]
    rfl
  have h2 : ∀ (l : List ℕ) (F : ℕ → K), l.foldr (fun j t => t + F j) 0 = (l.map F).sum := by
    intro l F
    induction l with
    | nil => simp
    | cons a l ih => simp only [List.foldr_cons, List.map_cons, List.sum_cons, ih]; ring
  unfold termIC
  simp only [h1]
  rw [h2 _ (fun i : ℕ => (x (R.f + i) - ∑ j ∈ range i, R.a (j + 1) * x (R.f + i - (j + 1))) * g (n - i - R.f))]
  rfl

theorem termIC_hom {R : LinRec K} {g : ℤ → K} (hg : Hom R g) (x : ℤ → K) :
    Hom R (termIC R g x) := by
  have : termIC R g x = fun n => ∑ i ∈ range R.k,
      (x (R.f + i) - ∑ j ∈ range i, R.a (j + 1) * x (R.f + i - (j + 1))) * g (n - i - R.f) := by
    funext n; exact termIC_eq R g x n
  rw [this]
  have h : ∀ m, Hom R (fun n => ∑ i ∈ range m,
      (x (R.f + i) - ∑ j ∈ range i, R.a (j + 1) * x (R.f + i - (j + 1))) * g (n - i - R.f)) := by
    intro m
    induction m with
    | zero => simpa using hom_zero
    | succ m ih =>
      simp only [sum_range_succ]
      have e : ∀ n : ℤ, n - (m : ℤ) - R.f = n - ((m : ℤ) + R.f) := fun n => by ring
      simp only [e] at *
      exact hom_add ih (hom_smul _ (hom_shift _ hg))
  exact h R.k

/-- At the first `k` indices the term has the initial values. -/
theorem termIC_init {R : LinRec K} {g : ℤ → K} (ha : R.a R.k ≠ 0) (hg : Fundamental R g) (x : ℤ → K)
    (i : ℕ) (hi : i < R.k) : termIC R g x ((R.f : ℤ) + i) = x ((R.f : ℤ) + i) := by
  rw [termIC_eq]
  have hneg := fundamental_neg ha hg
  obtain ⟨hh, h0, hf⟩ := hg
  rw [← sum_range_add_sum_Ico _ (show i + 1 ≤ R.k by omega)]
  rw [sum_eq_zero (s := Ico (i + 1) R.k)]
  swap
  · intro l hl
    rw [mem_Ico] at hl
    have e : (R.f : ℤ) + i - l - R.f = -((l - i : ℕ) : ℤ) := by
      push_cast [Nat.cast_sub (show i ≤ l by omega)]; ring
    rw [e, hneg (l - i) (by omega) (by omega), mul_zero]
  rw [add_zero]
  simp only [sub_mul, sum_sub_distrib]
  have e1 : ∀ l : ℕ, (R.f : ℤ) + i - l - R.f = (i : ℤ) - l := fun l => by ring
  simp only [e1, sum_mul]
  rw [sum_range_succ, sub_self, h0, mul_one]
  have key : ∑ l ∈ range i, x (R.f + l) * g ((i : ℤ) - l)
      = ∑ l ∈ range (i + 1), ∑ j ∈ range l, R.a (j + 1) * x (R.f + l - (j + 1)) * g ((i : ℤ) - l) := by
    have r1 : ∀ l ∈ range i, x (R.f + l) * g ((i : ℤ) - l)
        = ∑ j ∈ range (i - l), R.a (j + 1) * x (R.f + l) * g ((i : ℤ) - l - (j + 1)) := by
      intro l hl
      rw [mem_range] at hl
      have := hf (i - l) (by omega) (by omega)
      rw [Nat.cast_sub (by omega)] at this
      rw [this, mul_sum]
      exact sum_congr rfl fun j _ => by ring
    rw [sum_congr rfl r1]
    rw [sum_sigma', sum_sigma']
    refine sum_nbij' (fun p => ⟨p.1 + p.2 + 1, p.2⟩) (fun p => ⟨p.1 - (p.2 + 1), p.2⟩) ?_ ?_ ?_ ?_ ?_
    · rintro ⟨l, j⟩ h
      simp only [mem_sigma, mem_range] at h ⊢
      omega
    · rintro ⟨l, j⟩ h
      simp only [mem_sigma, mem_range] at h ⊢
      omega
    · rintro ⟨l, j⟩ h
      simp only [mem_sigma, mem_range] at h ⊢
      congr 1; omega
    · rintro ⟨l, j⟩ h
      simp only [mem_sigma, mem_range] at h ⊢
      congr 1; omega
    · rintro ⟨l, j⟩ h
      simp only [mem_sigma, mem_range] at h ⊢
      push_cast
      congr 2
      · congr 2; ring
      · ring
  linear_combination key

theorem conv_solves {R : LinRec K} {g : ℤ → K} (hk : 1 ≤ R.k) (ha : R.a R.k ≠ 0) (hg : Fundamental R g) :
    Solves R (convolution R g) := by
  have hneg := fundamental_neg ha hg
  obtain ⟨hh, h0, hf⟩ := hg
  intro n hn
  unfold convolution
  have ext : ∀ j ∈ range R.k, ∑ h ∈ Icc ((R.f : ℤ) + R.k) (n - ((j : ℤ) + 1)), g (n - ((j : ℤ) + 1) - h) * R.p h
      = ∑ h ∈ Ico ((R.f : ℤ) + R.k) n, g (n - ((j : ℤ) + 1) - h) * R.p h := by
    intro j hj
    rw [mem_range] at hj
    refine sum_subset ?_ ?_
    · intro h hh
      rw [mem_Icc] at hh
      rw [mem_Ico]; omega
    · intro h hh hh'
      rw [mem_Ico] at hh
      rw [mem_Icc] at hh'
      have e : n - ((j : ℤ) + 1) - h = -((((j : ℤ) + 1 + h - n).toNat : ℕ) : ℤ) := by omega
      rw [e, hneg _ (by omega) (by omega), zero_mul]
  have ext2 : ∑ j ∈ range R.k, R.a (j + 1) * ∑ h ∈ Icc ((R.f : ℤ) + R.k) (n - ((j : ℤ) + 1)),
        g (n - ((j : ℤ) + 1) - h) * R.p h
      = ∑ j ∈ range R.k, R.a (j + 1) * ∑ h ∈ Ico ((R.f : ℤ) + R.k) n,
        g (n - ((j : ℤ) + 1) - h) * R.p h :=
    sum_congr rfl fun j hj => by rw [ext j hj]
  rw [ext2]
  have : Icc ((R.f : ℤ) + R.k) n = insert n (Ico ((R.f : ℤ) + R.k) n) := by
    ext h; simp only [mem_Icc, mem_insert, mem_Ico]; omega
  rw [this, sum_insert (by simp), sub_self, h0, one_mul, add_comm]
  congr 1
  simp only [mul_sum]
  rw [sum_comm]
  refine sum_congr rfl fun h _ => ?_
  rw [hh (n - h), sum_mul]
  refine sum_congr rfl fun j _ => ?_
  rw [show n - h - ((j : ℤ) + 1) = n - ((j : ℤ) + 1) - h by ring]; ring

theorem solves_add_hom {R : LinRec K} {s g : ℤ → K} (hs : Solves R s) (hg : Hom R g) :
    Solves R (fun n => g n + s n) := by
  intro n hn
  simp only [mul_add, sum_add_distrib]
  rw [← hg n, hs n hn]; ring

/-- The general formula of the old method: the term of the initial conditions plus the convolution of
the fundamental solution with the inhomogeneous term is the sequence itself. -/
theorem fundamental_method {R : LinRec K} {g : ℤ → K} (hk : 1 ≤ R.k) (ha : R.a R.k ≠ 0)
    (hg : Fundamental R g) (x : ℤ → K) (hx : Solves R x) :
    ∀ n : ℤ, (R.f : ℤ) ≤ n → termIC R g x n + convolution R g n = x n := by
  intro n hn
  have h1 : Solves R (fun n => termIC R g x n + convolution R g n) :=
    solves_add_hom (conv_solves hk ha hg) (termIC_hom hg.1 x)
  refine solves_unique h1 hx ?_ n hn
  intro i hi
  rw [termIC_init ha hg x i hi]
  have : convolution R g ((R.f : ℤ) + i) = 0 := by
    unfold convolution
    rw [Icc_eq_empty (by omega), sum_empty]
  rw [this, add_zero]

end Purrs.Exact
