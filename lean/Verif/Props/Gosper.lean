import Verif.Model.Gosper
import Verif.Props.Resultant
import Verif.Props.IntUtil
import Mathlib.Analysis.Complex.Polynomial.Basic
import Mathlib.RingTheory.Polynomial.IrreducibleRing

/-!
# C48, C75: Gosper's algorithm

The specification of C48 is the sum of the values of the term; that of C75, that no rational multiple of the term telescopes to it.
-/

set_option linter.unusedSectionVars false

namespace Purrs.Gosper

open Polynomial Purrs.Resultant

noncomputable section

open Classical

variable (O : Ops)

/-- The specification of GiNaC's `gcd` of polynomials, the first of which is not zero. -/
structure GcdOk : Prop where
  left : ∀ p q, p ≠ 0 → O.gcd p q ∣ p
  right : ∀ p q, p ≠ 0 → O.gcd p q ∣ q
  greatest : ∀ p q d, p ≠ 0 → d ∣ p → d ∣ q → d ∣ O.gcd p q

/-! ### Shifts -/

theorem taylor_cancel (k : ℚ) (p : ℚ[X]) : taylor (-k) (taylor k p) = p := by
  rw [taylor_taylor]; simp

theorem taylor_cancel' (k : ℚ) (p : ℚ[X]) : taylor k (taylor (-k) p) = p := by
  rw [taylor_taylor]; simp

theorem taylor_ne {k : ℚ} {p : ℚ[X]} (h : p ≠ 0) : taylor k p ≠ 0 := by
  intro h0
  apply h
  have := taylor_cancel k p
  rw [h0] at this
  simpa using this.symm

theorem taylor_dvd {k : ℚ} {p q : ℚ[X]} (h : p ∣ q) : taylor k p ∣ taylor k q := by
  obtain ⟨r, rfl⟩ := h
  rw [taylor_mul]; exact Dvd.intro _ rfl

/-! ### Step two -/

theorem toInteger_assoc {p : ℚ[X]} (hp : p ≠ 0) : ∃ c : ℚ, c ≠ 0 ∧ p = toInteger p * C c ∧ toInteger p ≠ 0 := by
  obtain ⟨P, c, h1, h2, h3, h4, h5⟩ := C16_conversion p hp
  refine ⟨c, ?_, by rw [h2, ← h5], ?_⟩
  · rintro rfl; simp at h5; exact hp h5
  · intro h0
    rw [← h2, h0] at h5
    exact hp (by rw [h5]; simp)

theorem toInteger_dvd {p d : ℚ[X]} (hp : p ≠ 0) : d ∣ toInteger p ↔ d ∣ p := by
  obtain ⟨c, hc, he, _⟩ := toInteger_assoc hp
  constructor
  · intro h; rw [he]; exact h.mul_right _
  · intro h
    have hu : IsUnit (C c : ℚ[X]) := isUnit_C.mpr hc.isUnit
    rw [he] at h
    exact (hu.dvd_mul_right).mp h

variable {O}

theorem gcd_left (hO : GcdOk O) {p q : ℚ[X]} (hp : p ≠ 0) : generalGcd O p q ∣ p :=
  (toInteger_dvd hp).mp (hO.left _ _ (toInteger_assoc hp).choose_spec.2.2)

theorem gcd_right (hO : GcdOk O) {p q : ℚ[X]} (hp : p ≠ 0) (hq : q ≠ 0) : generalGcd O p q ∣ q :=
  (toInteger_dvd hq).mp (hO.right _ _ (toInteger_assoc hp).choose_spec.2.2)

theorem gcd_greatest (hO : GcdOk O) {p q d : ℚ[X]} (hp : p ≠ 0) (hq : q ≠ 0) (h1 : d ∣ p) (h2 : d ∣ q) : d ∣ generalGcd O p q :=
  hO.greatest _ _ _ (toInteger_assoc hp).choose_spec.2.2 ((toInteger_dvd hp).mpr h1) ((toInteger_dvd hq).mpr h2)

/-- The product of the shifted greatest common divisors. -/
theorem foldl_taylor (s c : ℚ[X]) (i : ℕ) :
    (List.range i).foldl (fun c (j : ℕ) => c * taylor (-((j : ℚ) + 1)) s) c = c * ∏ j ∈ Finset.range i, taylor (-((j : ℚ) + 1)) s := by
  induction i with
  | zero => simp
  | succ i ih => rw [List.range_succ, List.foldl_append, ih, Finset.prod_range_succ]; simp [mul_assoc]

theorem taylor_prod_range (s : ℚ[X]) (i : ℕ) :
    taylor 1 (∏ j ∈ Finset.range i, taylor (-((j : ℚ) + 1)) s) = ∏ j ∈ Finset.range i, taylor (-(j : ℚ)) s := by
  induction i with
  | zero => simp
  | succ i ih =>
    rw [Finset.prod_range_succ, Finset.prod_range_succ, taylor_mul, ih, taylor_taylor]
    congr 2; ring_nf

/-- The invariant of the loop. -/
structure Inv (f g z : ℚ[X]) (st : ℚ[X] × ℚ[X] × ℚ[X]) : Prop where
  a : st.1 ≠ 0
  b : st.2.1 ≠ 0
  c : st.2.2 ≠ 0
  ratio : z * st.1 * taylor 1 st.2.2 * g = f * st.2.1 * st.2.2
  da : st.1 ∣ f
  db : st.2.1 ∣ g

theorem reduce_inv (hO : GcdOk O) {f g z : ℚ[X]} {st} (h : Inv f g z st) (i : ℕ) :
    Inv f g z (reduce O st i) ∧ (reduce O st i).1 ∣ st.1 ∧ (reduce O st i).2.1 ∣ st.2.1 ∧
      IsCoprime (reduce O st i).1 (taylor (i : ℚ) (reduce O st i).2.1) := by
  obtain ⟨a, b, c⟩ := st
  obtain ⟨ha, hb, hc, hr, hda, hdb⟩ := h
  simp only at ha hb hc hr hda hdb
  have hbt : taylor (i : ℚ) b ≠ 0 := taylor_ne hb
  set s := generalGcd O a (taylor (i : ℚ) b) with hs
  obtain ⟨a', ha'⟩ : s ∣ a := gcd_left hO ha
  obtain ⟨bt, hbt'⟩ : s ∣ taylor (i : ℚ) b := gcd_right hO ha hbt
  have hs0 : s ≠ 0 := by rintro h0; rw [h0, zero_mul] at ha'; exact ha ha'
  have hst0 : taylor (-(i : ℚ)) s ≠ 0 := taylor_ne hs0
  have hb' : b = taylor (-(i : ℚ)) s * taylor (-(i : ℚ)) bt := by
    rw [← taylor_mul, ← hbt', taylor_cancel]
  have e1 : a / s = a' := by rw [ha']; exact mul_div_cancel_left₀ _ hs0
  have e2 : b / taylor (-(i : ℚ)) s = taylor (-(i : ℚ)) bt := by
    conv_lhs => rw [hb']
    exact mul_div_cancel_left₀ _ hst0
  have hred : reduce O (a, b, c) i = (a', taylor (-(i : ℚ)) bt, c * ∏ j ∈ Finset.range i, taylor (-((j : ℚ) + 1)) s) := by
    unfold reduce
    dsimp only
    rw [← hs, e1, e2, foldl_taylor]
  rw [hred]
  have ha'0 : a' ≠ 0 := by rintro rfl; rw [mul_zero] at ha'; exact ha ha'
  have hbt0 : bt ≠ 0 := by rintro rfl; rw [mul_zero] at hbt'; exact hbt hbt'
  have hP0 : ∏ j ∈ Finset.range i, taylor (-((j : ℚ) + 1)) s ≠ 0 := Finset.prod_ne_zero_iff.mpr fun j _ => taylor_ne hs0
  refine ⟨⟨ha'0, taylor_ne hbt0, mul_ne_zero hc hP0, ?_, (Dvd.intro_left _ ha'.symm).trans hda, (Dvd.intro_left _ hb'.symm).trans hdb⟩,
    Dvd.intro_left _ ha'.symm, Dvd.intro_left _ hb'.symm, ?_⟩
  · dsimp only
    rw [taylor_mul, taylor_prod_range]
    have key : s * ∏ j ∈ Finset.range i, taylor (-((j : ℚ) + 1)) s = taylor (-(i : ℚ)) s * ∏ j ∈ Finset.range i, taylor (-(j : ℚ)) s := by
      have h1 := Finset.prod_range_succ (fun j : ℕ => taylor (-(j : ℚ)) s) i
      have h2 := Finset.prod_range_succ' (fun j : ℕ => taylor (-(j : ℚ)) s) i
      rw [h1] at h2
      push_cast at h2
      rw [show taylor (-(0 : ℚ)) s = s by simp] at h2
      rw [mul_comm s, ← h2, mul_comm]
    apply mul_left_cancel₀ (mul_ne_zero hs0 hst0)
    rw [ha', hb'] at hr
    calc s * taylor (-(i : ℚ)) s * (z * a' * (taylor 1 c * ∏ j ∈ Finset.range i, taylor (-(j : ℚ)) s) * g)
        = (z * (s * a') * taylor 1 c * g) * (taylor (-(i : ℚ)) s * ∏ j ∈ Finset.range i, taylor (-(j : ℚ)) s) := by ring
      _ = (f * (taylor (-(i : ℚ)) s * taylor (-(i : ℚ)) bt) * c) * (s * ∏ j ∈ Finset.range i, taylor (-((j : ℚ) + 1)) s) := by rw [hr, key]
      _ = _ := by ring
  · dsimp only
    rw [taylor_cancel']
    -- the quotients by the greatest common divisor are coprime
    have hg : ∀ d, d ∣ a' → d ∣ bt → IsUnit d := by
      intro d h1 h2
      have h3 : s * d ∣ s := by
        rw [hs]
        refine gcd_greatest hO ha hbt ?_ ?_
        · rw [← hs]
          conv_rhs => rw [ha']
          exact mul_dvd_mul_left _ h1
        · rw [← hs]
          conv_rhs => rw [hbt']
          exact mul_dvd_mul_left _ h2
      have h4 : s * d ∣ s * 1 := by rw [mul_one]; exact h3
      exact isUnit_of_dvd_one ((mul_dvd_mul_iff_left hs0).mp h4)
    exact isCoprime_of_dvd _ _ (fun h => ha'0 h.1) fun d hd _ h1 h2 => hd (hg d h1 h2)

theorem IsCoprime.of_dvd {a b a' b' : ℚ[X]} (h : IsCoprime a b) (h1 : a' ∣ a) (h2 : b' ∣ b) : IsCoprime a' b' :=
  (h.of_isCoprime_of_dvd_left h1).of_isCoprime_of_dvd_right h2

theorem loop_inv (hO : GcdOk O) {f g z : ℚ[X]} (roots : List ℕ) {st} (h : Inv f g z st) :
    Inv f g z (roots.foldl (reduce O) st) ∧ (roots.foldl (reduce O) st).1 ∣ st.1 ∧ (roots.foldl (reduce O) st).2.1 ∣ st.2.1 ∧
      ∀ i ∈ roots, IsCoprime (roots.foldl (reduce O) st).1 (taylor (i : ℚ) (roots.foldl (reduce O) st).2.1) := by
  induction roots generalizing st with
  | nil => exact ⟨h, dvd_rfl, dvd_rfl, by simp⟩
  | cons i l ih =>
    obtain ⟨r1, r2, r3, r4⟩ := reduce_inv hO h i
    obtain ⟨i1, i2, i3, i4⟩ := ih r1
    rw [List.foldl_cons]
    refine ⟨i1, i2.trans r2, i3.trans r3, ?_⟩
    intro j hj
    rcases List.mem_cons.mp hj with rfl | hj
    · exact IsCoprime.of_dvd r4 i2 (taylor_dvd i3)
    · exact i4 j hj

theorem toInt_spec {p q : ℚ[X]} (hp : p ≠ 0) {r : ℚ[X] × ℚ[X]} (h : toInt p q = some r) :
    ∃ u v : ℚ, u ≠ 0 ∧ v ≠ 0 ∧ r.1 = p * C u ∧ r.2 = q * C v ∧ u = v := by
  unfold toInt at h
  split at h
  · cases h; exact ⟨1, 1, by simp, by simp, by simp, by simp, rfl⟩
  · obtain ⟨s, hs, rfl⟩ := Option.map_eq_some_iff.mp h
    obtain ⟨P, c, h1, h2, h3, h4, h5⟩ := C16_conversion p hp
    rw [h1] at hs
    cases hs
    have hc : c ≠ 0 := by rintro rfl; simp at h5; exact hp h5
    refine ⟨(c.den : ℚ), (c.den : ℚ), by exact_mod_cast c.den_nz, by exact_mod_cast c.den_nz, ?_, rfl, rfl⟩
    dsimp only
    conv_rhs => rw [h5]
    rw [mul_assoc, ← C_mul]
    congr 2
    exact (Rat.mul_den_eq_num c).symm

theorem init_inv {f g : ℚ[X]} (hf : f ≠ 0) (hg : g ≠ 0) :
    Inv f g (C (f.leadingCoeff * g.leadingCoeff⁻¹)) (f * C f.leadingCoeff⁻¹, g * C g.leadingCoeff⁻¹, 1) := by
  have hlf : f.leadingCoeff ≠ 0 := leadingCoeff_ne_zero.mpr hf
  have hlg : g.leadingCoeff ≠ 0 := leadingCoeff_ne_zero.mpr hg
  have hCf : (C f.leadingCoeff⁻¹ : ℚ[X]) ≠ 0 := by simpa using hf
  have hCg : (C g.leadingCoeff⁻¹ : ℚ[X]) ≠ 0 := by simpa using hg
  refine ⟨mul_ne_zero hf hCf, mul_ne_zero hg hCg, one_ne_zero, ?_, ?_, ?_⟩
  · simp only [taylor_one, map_one, mul_one]
    have : (C (f.leadingCoeff * g.leadingCoeff⁻¹) * C f.leadingCoeff⁻¹ : ℚ[X]) = C g.leadingCoeff⁻¹ := by
      rw [← C_mul]; congr 1; field_simp
    calc C (f.leadingCoeff * g.leadingCoeff⁻¹) * (f * C f.leadingCoeff⁻¹) * g
        = f * (g * (C (f.leadingCoeff * g.leadingCoeff⁻¹) * C f.leadingCoeff⁻¹)) := by ring
      _ = _ := by rw [this]
  · exact ⟨C f.leadingCoeff, by simp only; rw [mul_assoc, ← C_mul, inv_mul_cancel₀ hlf]; simp⟩
  · exact ⟨C g.leadingCoeff, by simp only; rw [mul_assoc, ← C_mul, inv_mul_cancel₀ hlg]; simp⟩

/-- C48: step two of the algorithm: the ratio is `(a/b) (c(m+1)/c(m))`. -/
theorem C48_ratio (hO : GcdOk O) {f g : ℚ[X]} (hf : f ≠ 0) (hg : g ≠ 0) {a b c : ℚ[X]} (h : stepTwo O f g = some (a, b, c)) :
    a ≠ 0 ∧ b ≠ 0 ∧ c ≠ 0 ∧ f * b * c = g * a * taylor 1 c := by
  unfold stepTwo at h
  obtain ⟨roots, h1, h⟩ := Option.bind_eq_some_iff.mp h
  dsimp only at h
  obtain ⟨ab, h2, h⟩ := Option.bind_eq_some_iff.mp h
  obtain ⟨ba, h3, h4⟩ := Option.map_eq_some_iff.mp h
  obtain ⟨L, -, -, -⟩ := loop_inv hO roots (init_inv hf hg)
  generalize hst : roots.foldl (reduce O) (f * C f.leadingCoeff⁻¹, g * C g.leadingCoeff⁻¹, 1) = st at h2 h3 h4 L
  have hz : (C (f.leadingCoeff * g.leadingCoeff⁻¹) : ℚ[X]) ≠ 0 := by simp [hf, hg]
  have hA : st.1 * C (f.leadingCoeff * g.leadingCoeff⁻¹) ≠ 0 := mul_ne_zero L.a hz
  obtain ⟨u, v, hu, hv, e1, e2, rfl⟩ := toInt_spec hA h2
  have hCu : (C u : ℚ[X]) ≠ 0 := by simpa using hu
  have hB : ab.2 ≠ 0 := by rw [e2]; exact mul_ne_zero L.b hCu
  obtain ⟨u', v', hu', hv', e3, e4, rfl⟩ := toInt_spec hB h3
  have hCu' : (C u' : ℚ[X]) ≠ 0 := by simpa using hu'
  simp only [Prod.mk.injEq] at h4
  obtain ⟨rfl, rfl, rfl⟩ := h4
  rw [e3, e4, e1, e2]
  refine ⟨mul_ne_zero (mul_ne_zero hA hCu) hCu', mul_ne_zero (mul_ne_zero L.b hCu) hCu', L.c, ?_⟩
  calc f * (st.2.1 * C u * C u') * st.2.2 = (f * st.2.1 * st.2.2) * (C u * C u') := by ring
    _ = (C (f.leadingCoeff * g.leadingCoeff⁻¹) * st.1 * taylor 1 st.2.2 * g) * (C u * C u') := by rw [L.ratio]
    _ = _ := by ring

/-! ### The zeros of `c` -/

/-- Every rational zero of `c` is, up to a shift by a natural number, one of `g`. -/
def ZerosBefore (g c : ℚ[X]) : Prop := ∀ y : ℚ, c.eval y = 0 → ∃ j : ℕ, g.eval (y + j) = 0

theorem reduce_zeros (hO : GcdOk O) {f g z : ℚ[X]} {st} (h : Inv f g z st) (hz : ZerosBefore g st.2.2) (i : ℕ) :
    ZerosBefore g (reduce O st i).2.2 := by
  obtain ⟨a, b, c⟩ := st
  intro y hy
  simp only [reduce, foldl_taylor, eval_mul, eval_prod] at hy
  rcases mul_eq_zero.mp hy with hy | hy
  · exact hz y hy
  · obtain ⟨j, hj, h0⟩ := Finset.prod_eq_zero_iff.mp hy
    have hj := Finset.mem_range.mp hj
    rw [taylor_eval] at h0
    have hd : generalGcd O a (taylor (i : ℚ) b) ∣ taylor (i : ℚ) b := gcd_right hO h.a (taylor_ne h.b)
    have h1 := eval_dvd (x := -((j : ℚ) + 1) + y) hd
    rw [add_comm] at h0
    rw [h0, zero_dvd_iff, taylor_eval] at h1
    have h2 := eval_dvd (x := (i : ℚ) + (-((j : ℚ) + 1) + y)) h.db
    rw [add_comm] at h1
    rw [h1, zero_dvd_iff] at h2
    refine ⟨i - (j + 1), ?_⟩
    rw [Nat.cast_sub (by omega), ← h2]
    congr 1
    push_cast
    ring

theorem loop_zeros (hO : GcdOk O) {f g z : ℚ[X]} (roots : List ℕ) {st} (h : Inv f g z st) (hz : ZerosBefore g st.2.2) :
    ZerosBefore g (roots.foldl (reduce O) st).2.2 := by
  induction roots generalizing st with
  | nil => exact hz
  | cons i l ih => exact ih (reduce_inv hO h i).1 (reduce_zeros hO h hz i)

theorem stepTwo_zeros (hO : GcdOk O) {f g : ℚ[X]} (hf : f ≠ 0) (hg : g ≠ 0) {a b c : ℚ[X]} (h : stepTwo O f g = some (a, b, c)) :
    ZerosBefore g c := by
  unfold stepTwo at h
  obtain ⟨roots, h1, h⟩ := Option.bind_eq_some_iff.mp h
  dsimp only at h
  obtain ⟨ab, h2, h⟩ := Option.bind_eq_some_iff.mp h
  obtain ⟨ba, h3, h4⟩ := Option.map_eq_some_iff.mp h
  have := loop_zeros hO roots (init_inv hf hg) (fun y hy => by simp at hy)
  simp only [Prod.mk.injEq] at h4
  rw [← h4.2.2]
  exact this

/-! ### The dispersion -/

variable (O) in
/-- The specification of the resultant of `f(m)` and `g(m + h)`, as a polynomial in `h` with integer coefficients. -/
structure ResOk : Prop where
  ne : ∀ f g : ℚ[X], f ≠ 0 → g ≠ 0 → O.res f g ≠ 0
  root : ∀ (f g : ℚ[X]) (h : ℕ), f ≠ 0 → g ≠ 0 → ((O.res f g).eval (h : ℤ) = 0 ↔ ¬ IsCoprime f (taylor (h : ℚ) g))

/-- A positive integer root divides the lowest coefficient. -/
theorem root_dvd (R : ℤ[X]) (d : ℤ) (hd : d ≠ 0) (h : R.eval d = 0) : d ∣ R.trailingCoeff := by
  by_cases hR : R = 0
  · simp [hR]
  · obtain ⟨Q, hQ⟩ := (X_pow_dvd_iff (n := R.natTrailingDegree)).mpr fun m hm => coeff_eq_zero_of_lt_natTrailingDegree hm
    have h0 : Q.coeff 0 = R.trailingCoeff := by
      have := coeff_X_pow_mul Q R.natTrailingDegree 0
      rw [zero_add, ← hQ] at this
      rw [trailingCoeff, this]
    have h1 : Q.eval d = 0 := by
      rw [hQ, eval_mul, eval_pow, eval_X] at h
      exact (mul_eq_zero.mp h).resolve_left (pow_ne_zero _ hd)
    have h2 := sub_dvd_eval_sub d 0 Q
    rw [h1, ← coeff_zero_eq_eval_zero, h0] at h2
    simpa using h2

theorem integerRoots_spec {R : ℤ[X]} {l : List ℕ} (h : integerRoots R = some l) (d : ℕ) (hd : 0 < d) :
    d ∈ l ↔ R.eval (d : ℤ) = 0 := by
  unfold integerRoots at h
  by_cases h0 : R.trailingCoeff = 0
  · rw [if_pos h0] at h; cases h
  rw [if_neg h0] at h
  obtain ⟨dl, h1, rfl⟩ := Option.map_eq_some_iff.mp h
  rw [List.mem_mergeSort, List.mem_filter, List.mem_reverse]
  rw [C05_findDivisors_exact _ (by omega) dl h1]
  constructor
  · intro h2; simpa using h2.2
  · intro h2
    exact ⟨by simpa using Int.natAbs_dvd_natAbs.mpr (root_dvd R d (by omega) h2), by simpa using h2⟩

/-- The roots come in increasing order, and zero is not among them. -/
theorem integerRoots_pos {R : ℤ[X]} {l : List ℕ} (h : integerRoots R = some l) : ∀ d ∈ l, 0 < d := by
  unfold integerRoots at h
  by_cases h0 : R.trailingCoeff = 0
  · rw [if_pos h0] at h; cases h
  rw [if_neg h0] at h
  obtain ⟨dl, h1, rfl⟩ := Option.map_eq_some_iff.mp h
  intro d hd
  rw [List.mem_mergeSort, List.mem_filter, List.mem_reverse, C05_findDivisors_exact _ (by omega) dl h1] at hd
  exact Nat.pos_of_dvd_of_pos hd.1 (by omega)

theorem assoc_dvd {p : ℚ[X]} {u : ℚ} (hu : u ≠ 0) : p * C u ∣ p := by
  refine ⟨C u⁻¹, ?_⟩
  rw [mul_assoc, ← C_mul, mul_inv_cancel₀ hu]; simp

/-- C48: step two leaves no common root of `a` and of a later `b`. -/
theorem C48_dispersion (hO : GcdOk O) (hR : ResOk O) {f g : ℚ[X]} (hf : f ≠ 0) (hg : g ≠ 0) (hfg : IsCoprime f g) {a b c : ℚ[X]}
    (h : stepTwo O f g = some (a, b, c)) (k : ℕ) : IsCoprime a (taylor (k : ℚ) b) := by
  unfold stepTwo at h
  obtain ⟨roots, h1, h⟩ := Option.bind_eq_some_iff.mp h
  dsimp only at h
  obtain ⟨ab, h2, h⟩ := Option.bind_eq_some_iff.mp h
  obtain ⟨ba, h3, h4⟩ := Option.map_eq_some_iff.mp h
  obtain ⟨L, da, db, L3⟩ := loop_inv hO roots (init_inv hf hg)
  generalize hst : roots.foldl (reduce O) (f * C f.leadingCoeff⁻¹, g * C g.leadingCoeff⁻¹, 1) = st at h2 h3 h4 L da db L3
  have hz : (f.leadingCoeff * g.leadingCoeff⁻¹) ≠ 0 := by simp [hf, hg]
  have hA : st.1 * C (f.leadingCoeff * g.leadingCoeff⁻¹) ≠ 0 := mul_ne_zero L.a (by simpa using hz)
  obtain ⟨u, v, hu, hv, e1, e2, rfl⟩ := toInt_spec hA h2
  have hCu : (C u : ℚ[X]) ≠ 0 := by simpa using hu
  have hB : ab.2 ≠ 0 := by rw [e2]; exact mul_ne_zero L.b hCu
  obtain ⟨u', v', hu', hv', e3, e4, rfl⟩ := toInt_spec hB h3
  simp only [Prod.mk.injEq] at h4
  obtain ⟨rfl, rfl, rfl⟩ := h4
  have d1 : ba.2 ∣ st.1 := by
    rw [e4, e1]; exact (assoc_dvd hu').trans ((assoc_dvd hu).trans (assoc_dvd hz))
  have d2 : ba.1 ∣ st.2.1 := by
    rw [e3, e2]; exact (assoc_dvd hu').trans (assoc_dvd hu)
  have key : IsCoprime st.1 (taylor (k : ℚ) st.2.1) := by
    have hall : IsCoprime f (taylor (k : ℚ) g) → IsCoprime st.1 (taylor (k : ℚ) st.2.1) := fun hc =>
      IsCoprime.of_dvd hc L.da (taylor_dvd L.db)
    rcases Nat.eq_zero_or_pos k with rfl | hk
    · apply hall; simpa using hfg
    · by_cases hm : k ∈ roots
      · exact L3 k hm
      · apply hall
        by_contra hn
        exact hm ((integerRoots_spec h1 k hk).mpr ((hR.root f g k hf hg).mpr hn))
  exact IsCoprime.of_dvd key d1 (taylor_dvd d2)

/-! ### Step three -/

/-- The equations `F u i = 0` are linear in the first `N` unknowns. -/
def Linear (N : ℕ) (F : (ℕ → ℚ) → ℕ → ℚ) : Prop :=
  ∃ (A : ℕ → ℕ → ℚ) (c : ℕ → ℚ), ∀ u i, F u i = ∑ j ∈ Finset.range N, A i j * u j + c i

variable (O) in
/-- The specification of `lsolve` for linear systems. -/
structure LsolveOk : Prop where
  sound : ∀ N F u, Linear N F → O.lsolve N F = some u → ∀ i < N, F u i = 0
  complete : ∀ N F u, Linear N F → (∀ i < N, F u i = 0) → (O.lsolve N F).isSome = true

theorem rr_generic (a b c : ℚ[X]) (n : ℕ) (u : ℕ → ℚ) :
    rr a b c (generic n u) = ∑ j ∈ Finset.range n, C (u j) * (a * taylor 1 (X ^ j) - taylor (-1) b * X ^ j) - c := by
  unfold rr generic
  rw [map_sum, Finset.mul_sum, Finset.mul_sum, ← Finset.sum_sub_distrib]
  congr 1
  refine Finset.sum_congr rfl fun j _ => ?_
  rw [taylor_mul, taylor_C]; ring

theorem rr_linear (a b c : ℚ[X]) (n N : ℕ) (h : n ≤ N) : Linear N fun u i => (rr a b c (generic n u)).coeff i := by
  refine ⟨fun i j => if j < n then (a * taylor 1 (X ^ j) - taylor (-1) b * X ^ j).coeff i else 0, fun i => - c.coeff i, fun u i => ?_⟩
  show (rr a b c (generic n u)).coeff i = _
  rw [rr_generic, coeff_sub, finsetSum_coeff, sub_eq_add_neg]
  congr 1
  rw [← Finset.sum_subset (Finset.range_subset_range.mpr h)]
  · refine Finset.sum_congr rfl fun j hj => ?_
    simp only [coeff_C_mul, if_pos (Finset.mem_range.mp hj)]; ring
  · intro j _ hj
    have hj' : ¬ j < n := by simpa using hj
    simp only [if_neg hj', zero_mul]

theorem generic_natDegree (n : ℕ) (u : ℕ → ℚ) : (generic (n + 1) u).natDegree ≤ n := by
  unfold generic
  refine natDegree_sum_le_of_forall_le _ _ fun i hi => ?_
  have := Finset.mem_range.mp hi
  exact (natDegree_C_mul_X_pow_le _ _).trans (by omega)

theorem generic_coeff (x : ℚ[X]) (n : ℕ) (h : x.natDegree ≤ n) : generic (n + 1) x.coeff = x :=
  (as_sum_range_C_mul_X_pow' x (by omega)).symm

theorem rr_natDegree (a b c x : ℚ[X]) : (rr a b c x).natDegree ≤ max (x.natDegree + max a.natDegree b.natDegree) c.natDegree := by
  unfold rr
  refine (natDegree_sub_le _ _).trans (max_le_max ?_ le_rfl)
  refine (natDegree_sub_le _ _).trans (max_le ?_ ?_)
  · refine natDegree_mul_le.trans ?_
    rw [natDegree_taylor]; have := le_max_left a.natDegree b.natDegree; omega
  · refine natDegree_mul_le.trans ?_
    rw [natDegree_taylor]; have := le_max_right a.natDegree b.natDegree; omega

theorem possibleDeg_ge (a b c : ℚ[X]) : (c.natDegree : ℤ) - a.natDegree + 1 ≤ possibleDeg a b c := by
  unfold possibleDeg
  dsimp only
  split
  · rename_i h
    obtain ⟨h1, h2, h3⟩ := h
    rw [← Rat.den_eq_one_iff _ |>.mp h1] at h3
    have := Int.cast_lt.mp h3
    omega
  · exact le_rfl

/-- The degree is so large that the system has an equation for every coefficient. -/
theorem degX_bound {a b c : ℚ[X]} {d : ℕ} (h : degX a b c = some d) : c.natDegree ≤ d + max a.natDegree b.natDegree := by
  unfold degX at h
  split at h
  · split at h
    · cases h; omega
    · split at h
      · cases h; omega
      · cases h
  · split at h
    · cases h
      have := possibleDeg_ge a b c
      omega
    · cases h

/-- C48: a solution found by step three is a solution. -/
theorem C48_solution (hL : LsolveOk O) {a b c x : ℚ[X]} (h : stepThree O a b c = some x) : a * taylor 1 x - taylor (-1) b * x = c := by
  unfold stepThree at h
  obtain ⟨d, hd, h⟩ := Option.bind_eq_some_iff.mp h
  unfold findSolution at h
  obtain ⟨u, hu, rfl⟩ := Option.map_eq_some_iff.mp h
  have h1 := hL.sound _ _ u (rr_linear a b c (d + 1) _ (by omega)) hu
  have hr : rr a b c (generic (d + 1) u) = 0 := by
    ext i
    rw [coeff_zero]
    by_cases hi : i < max (d + 1 + max a.natDegree b.natDegree) c.natDegree
    · exact h1 i hi
    · apply coeff_eq_zero_of_natDegree_lt
      have e1 := rr_natDegree a b c (generic (d + 1) u)
      have e2 := generic_natDegree d u
      have e3 := degX_bound hd
      omega
  unfold rr at hr
  exact sub_eq_zero.mp hr

/-! ### The bound on the degree -/

theorem coeff_mul_below {p q : ℚ[X]} {m n : ℕ} (hp : p.natDegree ≤ m) (hq : q.natDegree ≤ n) (h : 1 ≤ m + n) :
    (p * q).coeff (m + n - 1) = p.coeff m * coeffBelow q n + coeffBelow p m * q.coeff n := by
  have hr := reflect_mul p q hp hq
  have h1 := congrArg (fun r => r.coeff 1) hr
  simp only [mul_coeff_one, coeff_reflect] at h1
  have hb : ∀ (r : ℚ[X]) (k : ℕ), r.natDegree ≤ k → r.coeff (revAt k 1) = coeffBelow r k := by
    intro r k hk
    unfold coeffBelow
    split
    · rename_i h0
      subst h0
      rw [revAt_eq_self_of_lt (by omega)]
      exact coeff_eq_zero_of_natDegree_lt (by omega)
    · rw [revAt_le (by omega)]
  rw [revAt_le h, revAt_le (Nat.zero_le m), revAt_le (Nat.zero_le n), hb p m hp, hb q n hq] at h1
  simpa using h1

theorem taylor_below (x : ℚ[X]) {e : ℕ} (h : x.natDegree ≤ e) :
    coeffBelow (taylor 1 x) e = coeffBelow x e + e * x.coeff e := by
  unfold coeffBelow
  cases e with
  | zero => simp
  | succ e =>
    simp only [Nat.succ_ne_zero, if_false, Nat.add_sub_cancel]
    rw [taylor_coeff]
    have hn : (hasseDeriv e x).natDegree ≤ 1 := (natDegree_hasseDeriv_le x e).trans (by omega)
    rw [eq_X_add_C_of_natDegree_le_one hn]
    simp only [eval_add, eval_mul, eval_C, eval_X, mul_one, hasseDeriv_coeff]
    rw [zero_add, add_comm 1 e, Nat.choose_self, Nat.choose_succ_self_right]
    push_cast; ring

/-- The degree of a polynomial solution is at most the degree that step three tries. -/
theorem degX_complete {a b c x : ℚ[X]} (ha : a ≠ 0) (hb : b ≠ 0) (hc : c ≠ 0) (h : a * taylor 1 x - taylor (-1) b * x = c) :
    ∃ d, degX a b c = some d ∧ x.natDegree ≤ d := by
  have hx : x ≠ 0 := by rintro rfl; simp at h; exact hc h.symm
  have hxl : x.leadingCoeff ≠ 0 := leadingCoeff_ne_zero.mpr hx
  have hal : a.leadingCoeff ≠ 0 := leadingCoeff_ne_zero.mpr ha
  have hbl : b.leadingCoeff ≠ 0 := leadingCoeff_ne_zero.mpr hb
  have d1 : (a * taylor 1 x).natDegree = a.natDegree + x.natDegree := by
    rw [natDegree_mul ha (taylor_ne hx), natDegree_taylor]
  have d2 : (taylor (-1) b * x).natDegree = b.natDegree + x.natDegree := by
    rw [natDegree_mul (taylor_ne hb) hx, natDegree_taylor]
  unfold degX
  by_cases hd : a.natDegree = b.natDegree
  · have e1 : (a * taylor 1 x).coeff (a.natDegree + x.natDegree) = a.leadingCoeff * x.leadingCoeff := by
      rw [← d1, coeff_natDegree, leadingCoeff_mul, leadingCoeff_taylor]
    have e2 : (taylor (-1) b * x).coeff (a.natDegree + x.natDegree) = b.leadingCoeff * x.leadingCoeff := by
      rw [hd, ← d2, coeff_natDegree, leadingCoeff_mul, leadingCoeff_taylor]
    by_cases hl : a.leadingCoeff = b.leadingCoeff
    · rw [if_neg (by simp [hd, hl])]
      -- the two highest coefficients of `c`
      have t1 : c.coeff (a.natDegree + x.natDegree) = 0 := by
        rw [← h, coeff_sub, e1, e2, hl, sub_self]
      have dc : c.natDegree ≤ a.natDegree + x.natDegree := by
        rw [← h]; exact (natDegree_sub_le _ _).trans (by omega)
      have pos : 1 ≤ a.natDegree + x.natDegree := by
        by_contra h0
        apply hc
        have : c.natDegree = a.natDegree + x.natDegree := by omega
        rw [← this, coeff_natDegree] at t1
        exact leadingCoeff_eq_zero.mp t1
      have dc' : c.natDegree ≤ a.natDegree + x.natDegree - 1 := by
        rcases Nat.lt_or_ge c.natDegree (a.natDegree + x.natDegree) with h1 | h1
        · omega
        · have : c.natDegree = a.natDegree + x.natDegree := by omega
          rw [← this, coeff_natDegree] at t1
          exact absurd (leadingCoeff_eq_zero.mp t1) hc
      set q : ℚ := (coeffBelow (taylor (-1) b) a.natDegree - coeffBelow a a.natDegree) * a.leadingCoeff⁻¹ with hq
      have t2 : c.coeff (a.natDegree + x.natDegree - 1) = x.leadingCoeff * a.leadingCoeff * (x.natDegree - q) := by
        rw [← h, coeff_sub, coeff_mul_below le_rfl (by rw [natDegree_taylor]) pos,
          coeff_mul_below (by rw [natDegree_taylor, hd]) le_rfl pos, taylor_below x le_rfl]
        have e1 : (taylor (-1) b).coeff a.natDegree = a.leadingCoeff := by
          rw [hd, hl, coeff_taylor_natDegree]
        rw [e1, coeff_taylor_natDegree, hq]
        simp only [coeff_natDegree]
        field_simp
        ring
      have key : (x.natDegree : ℤ) ≤ possibleDeg a b c := by
        by_cases he : (x.natDegree : ℚ) = q
        · unfold possibleDeg
          dsimp only
          rw [← hq, ← he]
          split
          · rw [Rat.num_natCast]
          · rename_i hn
            by_contra hlt
            exact hn ⟨Rat.den_natCast _, by positivity, by
              have : (c.natDegree : ℤ) - a.natDegree + 1 < x.natDegree := by omega
              exact_mod_cast this⟩
        · have hne : c.coeff (a.natDegree + x.natDegree - 1) ≠ 0 := by
            rw [t2]; exact mul_ne_zero (mul_ne_zero hxl hal) (sub_ne_zero.mpr he)
          have := le_natDegree_of_ne_zero hne
          have := possibleDeg_ge a b c
          omega
      exact ⟨_, if_pos (by omega), by omega⟩
    · rw [if_pos (Or.inr hl)]
      have dc : c.natDegree = a.natDegree + x.natDegree := by
        apply le_antisymm
        · rw [← h]; exact (natDegree_sub_le _ _).trans (by omega)
        · apply le_natDegree_of_ne_zero
          rw [← h, coeff_sub]
          rw [e1, e2, ← sub_mul]
          exact mul_ne_zero (sub_ne_zero.mpr hl) hxl
      exact ⟨c.natDegree - a.natDegree, if_pos ⟨by omega, by omega⟩, by omega⟩
  · rw [if_pos (Or.inl hd)]
    rcases Nat.lt_or_gt_of_ne hd with hlt | hlt
    · have dc : c.natDegree = b.natDegree + x.natDegree := by
        rw [← h, natDegree_sub_eq_right_of_natDegree_lt (by omega), d2]
      refine ⟨c.natDegree - b.natDegree, ?_, by omega⟩
      rw [if_neg (by omega), if_pos (by omega)]
    · have dc : c.natDegree = a.natDegree + x.natDegree := by
        rw [← h, natDegree_sub_eq_left_of_natDegree_lt (by omega), d1]
      exact ⟨c.natDegree - a.natDegree, if_pos ⟨by omega, by omega⟩, by omega⟩

/-- Step three finds a polynomial solution if there is one. -/
theorem stepThree_complete (hL : LsolveOk O) {a b c x : ℚ[X]} (ha : a ≠ 0) (hb : b ≠ 0) (hc : c ≠ 0)
    (h : a * taylor 1 x - taylor (-1) b * x = c) : (stepThree O a b c).isSome = true := by
  obtain ⟨d, hd, hx⟩ := degX_complete ha hb hc h
  unfold stepThree
  rw [hd]
  show (findSolution O d a b c).isSome = true
  unfold findSolution
  rw [Option.isSome_map]
  refine hL.complete _ _ x.coeff (rr_linear a b c (d + 1) _ (by omega)) fun i _ => ?_
  show (rr a b c (generic (d + 1) x.coeff)).coeff i = 0
  rw [generic_coeff x d hx]
  unfold rr
  rw [h, sub_self, coeff_zero]

/-! ### Values -/

section Values

variable {K : Type} [Field K] [CharZero K]

theorem at_mul (p q : ℚ[X]) (k : ℤ) : (at' (p * q) k : K) = at' p k * at' q k := by
  unfold at'; rw [eval_mul]; push_cast; rfl

theorem at_sub (p q : ℚ[X]) (k : ℤ) : (at' (p - q) k : K) = at' p k - at' q k := by
  unfold at'; rw [eval_sub]; push_cast; rfl

theorem at_taylor (p : ℚ[X]) (j k : ℤ) : (at' (taylor (j : ℚ) p) k : K) = at' p (k + j) := by
  unfold at'; rw [taylor_eval]; push_cast; rfl

theorem at_next (p : ℚ[X]) (k : ℤ) : (at' (taylor 1 p) k : K) = at' p (k + 1) := by
  simpa using at_taylor (K := K) p 1 k

theorem at_prev (p : ℚ[X]) (k : ℤ) : (at' (taylor (-1) p) k : K) = at' p (k - 1) := by
  have := at_taylor (K := K) p (-1) k
  simpa [sub_eq_add_neg] using this

/-- A telescoping sum of integers. -/
theorem telescope (z t : ℤ → K) (lower : ℤ) (h : ∀ k, lower ≤ k → z (k + 1) - z k = t k) (n : ℕ) :
    ∑ k ∈ Finset.Icc lower (lower + n - 1), t k = z (lower + n) - z lower := by
  induction n with
  | zero => simp
  | succ n ih =>
    have e : Finset.Icc lower (lower + (n + 1 : ℕ) - 1) = insert (lower + n) (Finset.Icc lower (lower + n - 1)) := by
      ext k; simp only [Finset.mem_Icc, Finset.mem_insert]; push_cast; omega
    rw [e, Finset.sum_insert (by simp), ih, ← h (lower + n) (by omega)]
    push_cast
    rw [← add_assoc]; ring

theorem telescope' (z t : ℤ → K) (lower n : ℤ) (hn : lower ≤ n + 1) (h : ∀ k, lower ≤ k → z (k + 1) - z k = t k) :
    ∑ k ∈ Finset.Icc lower n, t k = z (n + 1) - z lower := by
  obtain ⟨j, hj⟩ := Int.eq_ofNat_of_zero_le (show 0 ≤ n + 1 - lower by omega)
  have := telescope z t lower h j
  rw [show lower + (j : ℤ) - 1 = n by omega, show lower + (j : ℤ) = n + 1 by omega] at this
  exact this

theorem gosper_inv {f g : ℚ[X]} {r} (h : gosper O f g = some r) :
    ∃ a b c, stepTwo O f g = some (a, b, c) ∧ r = (stepThree O a b c).map fun x => (b, c, x) := by
  unfold gosper at h
  obtain ⟨⟨a, b, c⟩, h1, h2⟩ := Option.map_eq_some_iff.mp h
  exact ⟨a, b, c, h1, h2.symm⟩

/-- C48: the closed form of a term `c T` for which `T(k+1)/T(k) = a(k)/b(k)`: no denominator occurs. -/
theorem C48_sum_cancelled (hL : LsolveOk O) {a b c x : ℚ[X]} (h3 : stepThree O a b c = some x) (T : ℤ → K) (lower n : ℤ)
    (hn : lower ≤ n + 1) (hT : ∀ k, lower ≤ k → at' b k * T (k + 1) = at' a k * T k) :
    ∑ k ∈ Finset.Icc lower n, at' c k * T k = at' b n * at' x (n + 1) * T (n + 1) - at' b (lower - 1) * at' x lower * T lower := by
  have hx := C48_solution hL h3
  have := telescope' (fun k => at' b (k - 1) * at' x k * T k) (fun k => at' c k * T k) lower n hn ?_
  · rw [this]; simp
  · intro k hk
    have e : (at' c k : K) = at' a k * at' x (k + 1) - at' b (k - 1) * at' x k := by
      rw [← hx, at_sub, at_mul, at_mul, at_next, at_prev]
    rw [e, show k + 1 - 1 = k by ring]
    have := hT k hk
    linear_combination (at' x (k + 1)) * this

/-- C48, terms with zeros: if the term is `c T`, where the ratio of `T` is the fraction `a/b` of step two (so that `T` may be defined and
different from zero at the zeros of `g`, as `k!` in `k k!` at `0`), the closed form with `c` cancelled is the sum. -/
theorem C48_sum_zeros (hO : GcdOk O) (hL : LsolveOk O) {f g b c x : ℚ[X]} (hf : f ≠ 0) (hg : g ≠ 0) (h : gosper O f g = some (some (b, c, x))) :
    ∃ a, f * b * c = g * a * taylor 1 c ∧ ∀ (T : ℤ → K) (lower n : ℤ), lower ≤ n + 1 → (∀ k, lower ≤ k → at' b k * T (k + 1) = at' a k * T k) →
      ∑ k ∈ Finset.Icc lower n, at' c k * T k = at' b n * at' x (n + 1) * T (n + 1) - at' b (lower - 1) * at' x lower * T lower := by
  obtain ⟨a, b', c', h2, hr⟩ := gosper_inv h
  obtain ⟨x', h3, h4⟩ := Option.map_eq_some_iff.mp hr.symm
  simp only [Prod.mk.injEq] at h4
  obtain ⟨rfl, rfl, rfl⟩ := h4
  exact ⟨a, (C48_ratio hO hf hg h2).2.2.2, fun T lower n hn hT => C48_sum_cancelled hL h3 T lower n hn hT⟩

/-- C48: whenever the algorithm answers with a closed form for a term whose ratio is `f/g`, the closed form is the sum of the term from
`lower` to `m + num`, wherever the ratio is defined on the range.  For terms with zeros at the zeros of `g` see `C48_sum_zeros`. -/
theorem C48_sum (hO : GcdOk O) (hL : LsolveOk O) {f g b c x : ℚ[X]} (hf : f ≠ 0) (hg : g ≠ 0)
    (h : gosper O f g = some (some (b, c, x))) (t : ℤ → K) (lower num m : ℤ) (hm : lower ≤ m + num + 1)
    (ht : ∀ k, lower ≤ k → at' g k * t (k + 1) = at' f k * t k) (hg0 : ∀ k, lower ≤ k → (at' g k : K) ≠ 0) :
    closedForm t b c x lower num m = ∑ k ∈ Finset.Icc lower (m + num), t k := by
  obtain ⟨a, b', c', h2, hr⟩ := gosper_inv h
  obtain ⟨x', h3, h4⟩ := Option.map_eq_some_iff.mp hr.symm
  simp only [Prod.mk.injEq] at h4
  obtain ⟨rfl, rfl, rfl⟩ := h4
  obtain ⟨-, -, -, hq⟩ := C48_ratio hO hf hg h2
  have hc0 : ∀ k, lower ≤ k → (at' c' k : K) ≠ 0 := by
    intro k hk h0
    obtain ⟨j, hj⟩ := stepTwo_zeros hO hf hg h2 (k : ℚ) (by unfold at' at h0; exact Rat.cast_eq_zero.mp h0)
    apply hg0 (k + j) (by omega)
    unfold at'
    push_cast
    rw [hj]
    simp
  have hx := C48_solution hL h3
  rw [telescope' (zVal t b' c' x') t lower (m + num) hm, closedForm]
  intro k hk
  have e1 := hc0 k hk
  have e2 := hc0 (k + 1) (by omega)
  have e3 := hg0 k hk
  have q : (at' f k : K) * at' b' k * at' c' k = at' g k * at' a k * at' c' (k + 1) := by
    rw [← at_next, ← at_mul, ← at_mul, hq, at_mul, at_mul]
  have e : (at' c' k : K) = at' a k * at' x' (k + 1) - at' b' (k - 1) * at' x' k := by
    conv_lhs => rw [← hx]
    rw [at_sub, at_mul, at_mul, at_next, at_prev]
  have h5 := ht k hk
  unfold zVal
  rw [show k + 1 - 1 = k by ring]
  have z1 : (at' b' k : K) * at' x' (k + 1) * t (k + 1) * (at' c' (k + 1))⁻¹ = at' a k * at' x' (k + 1) * t k * (at' c' k)⁻¹ := by
    field_simp
    apply mul_left_cancel₀ e3
    linear_combination (at' b' k * at' x' (k + 1) * at' c' k) * h5 + (at' x' (k + 1) * t k) * q
  rw [z1]
  field_simp
  linear_combination (-t k) * e

end Values

/-! ### The refusal -/

theorem aeval_taylor (p : ℚ[X]) (r : ℚ) (z : ℂ) : aeval z (taylor r p) = aeval (z + (r : ℂ)) p := by
  rw [taylor_apply, aeval_comp]
  simp

/-- A rational solution of the equation of step three is a polynomial. -/
theorem rational_polynomial {a b c p q : ℚ[X]} (hab : ∀ k : ℕ, IsCoprime a (taylor (k : ℚ) b)) (hq : q ≠ 0) (hpq : IsCoprime p q)
    (h : a * taylor 1 p * q - taylor (-1) b * p * taylor 1 q = c * q * taylor 1 q) : q.natDegree = 0 := by
  by_contra hd
  have hpq' := (isCoprime_iff_aeval_ne_zero_of_isAlgClosed ℚ ℂ p q).mp hpq
  have ev : ∀ z : ℂ, aeval z a * aeval (z + 1) p * aeval z q - aeval (z - 1) b * aeval z p * aeval (z + 1) q
      = aeval z c * aeval z q * aeval (z + 1) q := by
    intro z
    have := congrArg (aeval z) h
    simp only [map_sub, map_mul, aeval_taylor] at this
    push_cast at this
    simpa [sub_eq_add_neg] using this
  -- the roots
  let S : Set ℂ := {z | aeval z q = 0}
  have hS : S.Finite := by
    refine (q.rootSet_finite ℂ).subset fun z hz => ?_
    exact (mem_rootSet.mpr ⟨hq, hz⟩)
  obtain ⟨z0, hz0⟩ : S.Nonempty := by
    obtain ⟨z, hz⟩ := IsAlgClosed.exists_aeval_eq_zero ℂ q (by
      intro h0; exact hd (natDegree_eq_of_degree_eq_some h0))
    exact ⟨z, hz⟩
  let D : Set ℕ := {N | ∃ z ∈ S, z + (N : ℂ) ∈ S}
  have hD : D.Finite := by
    have hI : (Set.image2 (fun z w : ℂ => w - z) S S).Finite := hS.image2 _ hS
    refine (hI.preimage (f := fun N : ℕ => (N : ℂ)) (Nat.cast_injective.injOn)).subset ?_
    rintro N ⟨z, h1, h2⟩
    exact ⟨z, h1, _, h2, by ring⟩
  obtain ⟨N, ⟨z, h1, h2⟩, hmax⟩ := Set.exists_max_image D id hD ⟨0, z0, hz0, by simpa using hz0⟩
  have m1 : aeval (z - 1) q ≠ 0 := by
    intro h0
    have : N + 1 ≤ N := hmax (N + 1) ⟨z - 1, h0, by
      show aeval _ q = 0
      have e : z - 1 + ((N + 1 : ℕ) : ℂ) = z + N := by push_cast; ring
      rw [e]; exact h2⟩
    omega
  have m2 : aeval (z + N + 1) q ≠ 0 := by
    intro h0
    have : N + 1 ≤ N := hmax (N + 1) ⟨z, h1, by
      show aeval _ q = 0
      have e : z + ((N + 1 : ℕ) : ℂ) = z + N + 1 := by push_cast; ring
      rw [e]; exact h0⟩
    omega
  have h1' : aeval z q = 0 := h1
  have h2' : aeval (z + N) q = 0 := h2
  have r1 : aeval (z - 1) a = 0 := by
    have e := ev (z - 1)
    rw [sub_add_cancel, h1'] at e
    simp only [mul_zero, sub_zero] at e
    have hp : aeval z p ≠ 0 := (hpq' z).resolve_right (by simpa using h1')
    exact ((mul_eq_zero.mp ((mul_eq_zero.mp e).resolve_right m1))).resolve_right hp
  have r2 : aeval (z + N - 1) b = 0 := by
    have e := ev (z + N)
    rw [h2'] at e
    simp only [mul_zero, zero_mul, zero_sub, neg_eq_zero] at e
    have hp : aeval (z + N) p ≠ 0 := (hpq' _).resolve_right (by simpa using h2')
    exact ((mul_eq_zero.mp ((mul_eq_zero.mp e).resolve_right m2))).resolve_right hp
  have := (isCoprime_iff_aeval_ne_zero_of_isAlgClosed ℚ ℂ _ _).mp (hab N) (z - 1)
  rcases this with h0 | h0
  · exact h0 r1
  · apply h0
    rw [aeval_taylor]
    have e : z - 1 + ((N : ℚ) : ℂ) = z + N - 1 := by push_cast; ring
    rw [e]; exact r2

/-- A rational function that telescopes gives a polynomial solution of the equation of step three. -/
theorem polynomial_solution {f g a b c P Q : ℚ[X]} (hg : g ≠ 0) (hb : b ≠ 0)
    (hab : ∀ k : ℕ, IsCoprime a (taylor (k : ℚ) b)) (hr : f * b * c = g * a * taylor 1 c) (hQ : Q ≠ 0)
    (h : f * taylor 1 P * Q - g * P * taylor 1 Q = g * Q * taylor 1 Q) : ∃ x, a * taylor 1 x - taylor (-1) b * x = c := by
  -- the fraction `P c / (Q b(m-1))` in lowest terms
  set n := P * c with hn
  set d := Q * taylor (-1) b with hd
  have hd0 : d ≠ 0 := mul_ne_zero hQ (taylor_ne hb)
  have h1 : a * taylor 1 n * d - taylor (-1) b * n * taylor 1 d = c * d * taylor 1 d := by
    apply mul_left_cancel₀ hg
    have e : taylor 1 (taylor (-1) b) = b := by
      have := taylor_cancel' 1 b; simpa using this
    rw [hn, hd]
    simp only [taylor_mul, e]
    linear_combination (c * b * taylor (-1) b) * h - (taylor 1 P * Q * taylor (-1) b) * hr
  let s := EuclideanDomain.gcd n d
  obtain ⟨p, hp⟩ : s ∣ n := EuclideanDomain.gcd_dvd_left _ _
  obtain ⟨q, hq⟩ : s ∣ d := EuclideanDomain.gcd_dvd_right _ _
  have hs : s ≠ 0 := by rintro h0; rw [h0, zero_mul] at hq; exact hd0 hq
  have hq0 : q ≠ 0 := by rintro rfl; rw [mul_zero] at hq; exact hd0 hq
  have hcop : IsCoprime p q := by
    refine isCoprime_of_dvd _ _ (fun h => hq0 h.2) fun u hu _ hu1 hu2 => hu ?_
    have h3 : s * u ∣ s := EuclideanDomain.dvd_gcd (hp ▸ mul_dvd_mul_left s hu1) (hq ▸ mul_dvd_mul_left s hu2)
    have h4 : s * u ∣ s * 1 := by rw [mul_one]; exact h3
    exact isUnit_of_dvd_one ((mul_dvd_mul_iff_left hs).mp h4)
  have h2 : a * taylor 1 p * q - taylor (-1) b * p * taylor 1 q = c * q * taylor 1 q := by
    apply mul_left_cancel₀ (mul_ne_zero hs (taylor_ne (k := 1) hs))
    rw [hp, hq] at h1
    simp only [taylor_mul] at h1
    linear_combination h1
  have hdeg := rational_polynomial hab hq0 hcop h2
  obtain ⟨u, hu⟩ := natDegree_eq_zero.mp hdeg
  have hu0 : u ≠ 0 := by rintro rfl; simp at hu; exact hq0 hu.symm
  refine ⟨p * C u⁻¹, ?_⟩
  rw [← hu] at h2
  simp only [taylor_mul, taylor_C] at h2 ⊢
  have hCu : (C u : ℚ[X]) ≠ 0 := by simpa using hu0
  have hi : (C u * C u⁻¹ : ℚ[X]) = 1 := by rw [← C_mul, mul_inv_cancel₀ hu0]; simp
  apply mul_left_cancel₀ (mul_ne_zero hCu hCu)
  linear_combination h2 + (C u * a * taylor 1 p - C u * taylor (-1) b * p) * hi

section Refusal

variable {K : Type} [Field K] [CharZero K]

/-- Some rational multiple of `t` has the differences `t` from `k0` on, wherever it is defined. -/
def Summable (t : ℤ → K) (k0 : ℤ) : Prop :=
  ∃ P Q : ℚ[X], Q ≠ 0 ∧ ∀ k, k0 ≤ k → (at' Q k : K) ≠ 0 → (at' Q (k + 1) : K) ≠ 0 →
    at' P (k + 1) / at' Q (k + 1) * t (k + 1) - at' P k / at' Q k * t k = t k

theorem at_eq_zero {p : ℚ[X]} {k : ℤ} : (at' p k : K) = 0 ↔ p.eval (k : ℚ) = 0 := by
  unfold at'; exact Rat.cast_eq_zero

theorem eq_zero_of_at {D : ℚ[X]} (k0 : ℤ) (h : ∀ k, k0 ≤ k → (at' D k : K) = 0) : D = 0 := by
  apply eq_zero_of_infinite_isRoot
  refine Set.Infinite.mono (s := Set.range fun n : ℕ => ((k0 + n : ℤ) : ℚ)) ?_ ?_
  · rintro _ ⟨n, rfl⟩
    exact at_eq_zero.mp (h (k0 + n) (by omega))
  · apply Set.infinite_range_of_injective
    intro i j hij
    have hij' : ((k0 + (i : ℤ) : ℤ) : ℚ) = ((k0 + (j : ℤ) : ℤ) : ℚ) := hij
    have := Int.cast_injective hij'
    omega

/-- C75: the symbolic sum is the answer only if no rational multiple of the term telescopes to it. -/
theorem C75_refusal (hO : GcdOk O) (hR : ResOk O) (hL : LsolveOk O) {f g : ℚ[X]} (hf : f ≠ 0) (hg : g ≠ 0) (hfg : IsCoprime f g)
    (h : gosper O f g = some none) (t : ℤ → K) (k0 : ℤ) (ht : ∀ k, k0 ≤ k → at' g k * t (k + 1) = at' f k * t k)
    (h0 : ∀ k, k0 ≤ k → t k ≠ 0) : ¬ Summable t k0 := by
  rintro ⟨P, Q, hQ, hz⟩
  obtain ⟨a, b, c, h2, hr⟩ := gosper_inv h
  obtain ⟨ha, hb, hc, hq⟩ := C48_ratio hO hf hg h2
  have hab := C48_dispersion hO hR hf hg hfg h2
  have key : f * taylor 1 P * Q - g * P * taylor 1 Q - g * Q * taylor 1 Q = 0 := by
    have hD : (f * taylor 1 P * Q - g * P * taylor 1 Q - g * Q * taylor 1 Q) * (Q * taylor 1 Q) = 0 := by
      apply eq_zero_of_at (K := K) k0
      intro k hk
      simp only [at_mul, at_sub, at_next]
      by_cases h1 : (at' Q k : K) = 0
      · rw [h1]; ring
      by_cases h3 : (at' Q (k + 1) : K) = 0
      · rw [h3]; ring
      have e := hz k hk h1 h3
      have e' : (at' P (k + 1) * t (k + 1)) * at' Q k - at' P k * t k * at' Q (k + 1) = t k * (at' Q k * at' Q (k + 1)) := by
        field_simp at e
        linear_combination e
      have e2 : (at' f k * at' P (k + 1) * at' Q k - at' g k * at' P k * at' Q (k + 1) - at' g k * at' Q k * at' Q (k + 1) : K) = 0 := by
        apply mul_left_cancel₀ (h0 k hk)
        linear_combination at' g k * e' - (at' P (k + 1) * at' Q k) * ht k hk
      rw [e2, zero_mul]
    exact (mul_eq_zero.mp hD).resolve_right (mul_ne_zero hQ (taylor_ne hQ))
  obtain ⟨x, hx⟩ := polynomial_solution hg hb hab hq hQ (sub_eq_zero.mp key)
  have := stepThree_complete hL ha hb hc hx
  cases h3 : stepThree O a b c with
  | none => rw [h3] at this; cases this
  | some y => rw [h3] at hr; cases hr

/-- C75: a closed form is found exactly for the terms that have one. -/
theorem C75_decision (hO : GcdOk O) (hR : ResOk O) (hL : LsolveOk O) {f g : ℚ[X]} (hf : f ≠ 0) (hg : g ≠ 0) (hfg : IsCoprime f g)
    {r : Option (ℚ[X] × ℚ[X] × ℚ[X])} (h : gosper O f g = some r) (t : ℤ → K) (k0 : ℤ)
    (ht : ∀ k, k0 ≤ k → at' g k * t (k + 1) = at' f k * t k) (h0 : ∀ k, k0 ≤ k → t k ≠ 0)
    (hg0 : ∀ k, k0 ≤ k → (at' g k : K) ≠ 0) : r.isSome = true ↔ Summable t k0 := by
  constructor
  · intro hs
    cases r with
    | none => cases hs
    | some y =>
      obtain ⟨b, c, x⟩ := y
      obtain ⟨a, b', c', h2, hr⟩ := gosper_inv h
      obtain ⟨x', h3, h4⟩ := Option.map_eq_some_iff.mp hr.symm
      simp only [Prod.mk.injEq] at h4
      obtain ⟨rfl, rfl, rfl⟩ := h4
      obtain ⟨ha, hb, hc, hq⟩ := C48_ratio hO hf hg h2
      have hx := C48_solution hL h3
      refine ⟨taylor (-1) b' * x', c', hc, fun k hk c1 c2 => ?_⟩
      have e3 := hg0 k hk
      have q : (at' f k : K) * at' b' k * at' c' k = at' g k * at' a k * at' c' (k + 1) := by
        rw [← at_next, ← at_mul, ← at_mul, hq, at_mul, at_mul]
      have e : (at' c' k : K) = at' a k * at' x' (k + 1) - at' b' (k - 1) * at' x' k := by
        conv_lhs => rw [← hx]
        rw [at_sub, at_mul, at_mul, at_next, at_prev]
      have h5 := ht k hk
      rw [at_mul, at_mul, at_prev, at_prev, show k + 1 - 1 = k by ring]
      apply mul_left_cancel₀ (mul_ne_zero e3 (mul_ne_zero c1 c2))
      have z1 : (at' b' k : K) * at' x' (k + 1) / at' c' (k + 1) * t (k + 1) = at' a k * at' x' (k + 1) * t k / at' c' k := by
        field_simp
        apply mul_left_cancel₀ e3
        linear_combination (at' b' k * at' x' (k + 1) * at' c' k) * h5 + (at' x' (k + 1) * t k) * q
      rw [z1]
      field_simp
      linear_combination (-t k) * e
  · intro hs
    cases r with
    | none => exact absurd hs (C75_refusal hO hR hL hf hg hfg h t k0 ht h0)
    | some y => rfl

end Refusal

/-! ### Non-vacuity -/

theorem noncoprime_finite (f g : ℚ[X]) (hf : f ≠ 0) (hg : g ≠ 0) : {h : ℕ | ¬ IsCoprime f (taylor (h : ℚ) g)}.Finite := by
  have hI : (Set.image2 (fun z w : ℂ => w - z) {z | aeval z f = 0} {z | aeval z g = 0}).Finite := by
    refine Set.Finite.image2 _ ?_ ?_
    · exact (f.rootSet_finite ℂ).subset fun z hz => mem_rootSet.mpr ⟨hf, hz⟩
    · exact (g.rootSet_finite ℂ).subset fun z hz => mem_rootSet.mpr ⟨hg, hz⟩
  refine (hI.preimage (f := fun N : ℕ => (N : ℂ)) (Nat.cast_injective.injOn)).subset ?_
  intro h hh
  have hh' : ¬ IsCoprime f (taylor (h : ℚ) g) := hh
  rw [isCoprime_iff_aeval_ne_zero_of_isAlgClosed ℚ ℂ] at hh'
  push Not at hh'
  obtain ⟨z, h1, h2⟩ := hh'
  rw [aeval_taylor] at h2
  exact ⟨z, h1, _, h2, by push_cast; ring⟩

/-- Perfect implementations of the operations that are not modelled. -/
def ideal : Ops where
  gcd := EuclideanDomain.gcd
  res f g := if h : f ≠ 0 ∧ g ≠ 0 then ∏ k ∈ (noncoprime_finite f g h.1 h.2).toFinset, (X - C (k : ℤ)) else 0
  lsolve N F := if h : ∃ u, ∀ i < N, F u i = 0 then some h.choose else none

theorem ideal_gcd : GcdOk ideal :=
  ⟨fun _ _ _ => EuclideanDomain.gcd_dvd_left _ _, fun _ _ _ => EuclideanDomain.gcd_dvd_right _ _,
    fun _ _ _ _ h1 h2 => EuclideanDomain.dvd_gcd h1 h2⟩

theorem ideal_lsolve : LsolveOk ideal := by
  refine ⟨fun N F u _ h => ?_, fun N F u _ h => ?_⟩
  · simp only [ideal] at h
    split at h
    · rename_i hx; cases h; exact hx.choose_spec
    · cases h
  · simp only [ideal]
    rw [dif_pos ⟨u, h⟩]; rfl

theorem ideal_res : ResOk ideal := by
  refine ⟨fun f g hf hg => ?_, fun f g h hf hg => ?_⟩
  · simp only [ideal]
    rw [dif_pos ⟨hf, hg⟩]
    exact Finset.prod_ne_zero_iff.mpr fun k _ => X_sub_C_ne_zero _
  · simp only [ideal]
    rw [dif_pos ⟨hf, hg⟩, eval_prod, Finset.prod_eq_zero_iff]
    constructor
    · rintro ⟨k, hk, he⟩
      simp only [eval_sub, eval_X, eval_C] at he
      have : h = k := by omega
      subst this
      simpa using hk
    · intro hn
      exact ⟨h, by simpa using hn, by simp⟩

theorem toInt_isSome {p : ℚ[X]} (hp : p ≠ 0) (q : ℚ[X]) : (toInt p q).isSome = true := by
  unfold toInt
  split
  · rfl
  · obtain ⟨P, c, h1, -⟩ := C16_conversion p hp
    rw [h1]; rfl

/-- The algorithm answers whenever the roots of the resultant are found. -/
theorem gosper_isSome (hO : GcdOk O) {f g : ℚ[X]} (hf : f ≠ 0) (hg : g ≠ 0) (h : (integerRoots (O.res f g)).isSome = true) :
    (gosper O f g).isSome = true := by
  obtain ⟨roots, h⟩ := Option.isSome_iff_exists.mp h
  unfold gosper stepTwo
  rw [Option.isSome_map, h]
  obtain ⟨L, -, -, -⟩ := loop_inv hO roots (init_inv hf hg)
  dsimp only [Option.bind_some]
  generalize roots.foldl (reduce O) (f * C f.leadingCoeff⁻¹, g * C g.leadingCoeff⁻¹, 1) = st at L
  have hz : (C (f.leadingCoeff * g.leadingCoeff⁻¹) : ℚ[X]) ≠ 0 := by simp [hf, hg]
  have hA : st.1 * C (f.leadingCoeff * g.leadingCoeff⁻¹) ≠ 0 := mul_ne_zero L.a hz
  obtain ⟨ab, hab⟩ := Option.isSome_iff_exists.mp (toInt_isSome hA st.2.1)
  obtain ⟨u, v, hu, hv, e1, e2, rfl⟩ := toInt_spec hA hab
  rw [hab]
  dsimp only [Option.bind_some]
  rw [Option.isSome_map]
  exact toInt_isSome (by rw [e2]; exact mul_ne_zero L.b (by simpa using hu)) _

theorem findDivisors_one : findDivisors 1 = some [1] := by
  simp [findDivisors, findDivisorsMax]

theorem X_add_ne (k : ℚ) : (X + C k : ℚ[X]) ≠ 0 := (monic_X_add_C k).ne_zero

/-- The sum of `k k!` has a closed form, and the algorithm finds one. -/
theorem C48_nonvacuous : ∃ b c x, gosper ideal ((X + C 1) ^ 2) X = some (some (b, c, x)) := by
  have hf : ((X + C 1) ^ 2 : ℚ[X]) ≠ 0 := pow_ne_zero _ (X_add_ne 1)
  have hg : (X : ℚ[X]) ≠ 0 := X_ne_zero
  have hcop : ∀ h : ℕ, h ≠ 1 → IsCoprime ((X + C 1) ^ 2 : ℚ[X]) (taylor (h : ℚ) X) := by
    intro h hh
    rw [taylor_X]
    apply IsCoprime.pow_left
    have := isCoprime_X_sub_C_of_isUnit_sub (R := ℚ) (a := -1) (b := -(h : ℚ)) (by
      apply IsUnit.mk0
      intro h0
      apply hh
      have : (h : ℚ) = 1 := by linarith
      exact_mod_cast this)
    simpa using this
  have hnc : ¬ IsCoprime ((X + C 1) ^ 2 : ℚ[X]) (taylor ((1 : ℕ) : ℚ) X) := by
    rw [isCoprime_iff_aeval_ne_zero_of_isAlgClosed ℚ ℂ]
    push Not
    exact ⟨-1, by simp, by rw [taylor_X]; simp⟩
  have hres : ideal.res ((X + C 1) ^ 2) X = X - C 1 := by
    simp only [ideal]
    rw [dif_pos ⟨hf, hg⟩]
    have : (noncoprime_finite ((X + C 1) ^ 2) X hf hg).toFinset = {1} := by
      ext h
      simp only [Set.Finite.mem_toFinset, Set.mem_ofPred_eq, Finset.mem_singleton]
      constructor
      · intro h1; by_contra h2; exact h1 (hcop h h2)
      · rintro rfl; exact hnc
    rw [this]; simp
  have hroots : (integerRoots (ideal.res ((X + C 1) ^ 2) X)).isSome = true := by
    rw [hres]
    have ht : (X - C 1 : ℤ[X]).trailingCoeff = -1 := by
      rw [trailingCoeff_eq_coeff_zero (by simp)]; simp
    unfold integerRoots
    rw [ht, if_neg (by decide), show (-1 : ℤ).natAbs = 1 from rfl, findDivisors_one]
    rfl
  obtain ⟨r, hr⟩ := Option.isSome_iff_exists.mp (gosper_isSome ideal_gcd hf hg hroots)
  have key := (C75_decision (K := ℚ) ideal_gcd ideal_res ideal_lsolve hf hg
    (by simpa using hcop 0 (by decide)) hr (fun k => (k : ℚ) * (k.toNat).factorial) 1 ?_ ?_ ?_).mpr ?_
  · obtain ⟨⟨b, c, x⟩, rfl⟩ := Option.isSome_iff_exists.mp key
    exact ⟨b, c, x, hr⟩
  · intro k hk
    obtain ⟨n, rfl⟩ := Int.eq_ofNat_of_zero_le (show 0 ≤ k by omega)
    have : ((n : ℤ) + 1).toNat = n + 1 := by omega
    simp only [at', eval_X, eval_pow, eval_add, eval_C, this, Nat.factorial_succ, Int.toNat_natCast]
    push_cast; ring
  · intro k hk
    exact mul_ne_zero (by have : k ≠ 0 := by omega
                          exact_mod_cast this) (by exact_mod_cast Nat.factorial_ne_zero _)
  · intro k hk
    simp only [at', eval_X, Rat.cast_id]
    have : k ≠ 0 := by omega
    exact_mod_cast this
  · refine ⟨1, X, X_ne_zero, fun k hk h1 h2 => ?_⟩
    obtain ⟨n, rfl⟩ := Int.eq_ofNat_of_zero_le (show 0 ≤ k by omega)
    have : ((n : ℤ) + 1).toNat = n + 1 := by omega
    simp only [at', eval_X, eval_one, this, Nat.factorial_succ, Int.toNat_natCast, Rat.cast_id] at h1 h2 ⊢
    push_cast at h1 h2 ⊢
    field_simp
    ring

/-- The sum of `k!` has none, and the answer is the symbolic sum. -/
theorem C75_nonvacuous : gosper ideal (X + C 1) 1 = some none := by
  have hf : (X + C 1 : ℚ[X]) ≠ 0 := X_add_ne 1
  have hres : ideal.res (X + C 1) 1 = 1 := by
    simp only [ideal]
    rw [dif_pos ⟨hf, one_ne_zero⟩]
    have : (noncoprime_finite (X + C 1) 1 hf one_ne_zero).toFinset = ∅ := by
      ext h
      simp only [Set.Finite.mem_toFinset, Set.mem_ofPred_eq, taylor_one]
      simp [isCoprime_one_right]
    rw [this]; simp
  have hroots : integerRoots (ideal.res (X + C 1) 1) = some [] := by
    rw [hres]
    have ht : (1 : ℤ[X]).trailingCoeff = 1 := by
      rw [trailingCoeff_eq_coeff_zero (by simp)]; simp
    unfold integerRoots
    rw [ht, if_neg (by decide), show (1 : ℤ).natAbs = 1 from rfl, findDivisors_one]
    simp
  have hlead : (X + C 1 : ℚ[X]).leadingCoeff = 1 := leadingCoeff_X_add_C 1
  have hstep : stepTwo ideal (X + C 1) 1 = some (X + C 1, 1, 1) := by
    unfold stepTwo
    rw [hroots]
    have i1 : isIntPoly (X + C 1) := by
      intro i
      rw [coeff_add, coeff_X, coeff_C]
      split <;> split <;> norm_num
    have i2 : isIntPoly 1 := by
      intro i
      rw [coeff_one]
      split <;> norm_num
    simp only [Option.bind_some, List.foldl_nil, hlead, leadingCoeff_one, inv_one, mul_one]
    have e1 : ((X + C 1) * C 1 * C 1 : ℚ[X]) = X + C 1 := by simp
    have e2 : (1 * C 1 : ℚ[X]) = 1 := by simp
    rw [e1, e2, toInt, if_pos i1]
    simp only [Option.bind_some]
    rw [toInt, if_pos i2]
    rfl
  unfold gosper
  rw [hstep, Option.map_some]
  have hd : degX (X + C 1 : ℚ[X]) 1 1 = none := by
    unfold degX
    rw [natDegree_X_add_C, natDegree_one]
    simp
  show some ((stepThree ideal (X + C 1) 1 1).map _) = some none
  unfold stepThree
  rw [hd]
  rfl

end

end Purrs.Gosper
