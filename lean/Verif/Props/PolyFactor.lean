import Verif.Model.PolyFactor
import Verif.Props.AlgEqFind
import Mathlib.Tactic.NormNum
import Mathlib.Tactic.Linarith

/-!
# `poly_factor` and the conversion of NTL's integers (C112, C113)
-/

open Polynomial

namespace Purrs.PolyFactor

/-! ### The conversion -/

theorem wrap32 (z : ℤ) : wrap 32 z = if z % 4294967296 < 2147483648 then z % 4294967296 else z % 4294967296 - 4294967296 := by
  simp [wrap]

theorem wrap64 (z : ℤ) : wrap 64 z = if z % 18446744073709551616 < 9223372036854775808 then z % 18446744073709551616
    else z % 18446744073709551616 - 18446744073709551616 := by
  simp [wrap]

/-- With a `long` of four bytes. -/
theorem zz4 (z : ℤ) (h : -2147483648 ≤ z ∧ z ≤ 2147483647) :
    zzToLong 4 shlStrict z = .ok (if z < 0 then -((z.natAbs % 16777216 : ℕ) : ℤ) else ((z.natAbs % 16777216 : ℕ) : ℤ)) := by
  have hr : -2 ^ (8 * 4 - 1) ≤ z ∧ z ≤ 2 ^ (8 * 4 - 1) - 1 := by norm_num; exact h
  rw [zzToLong, if_pos hr]
  simp [bytesLoop, shlStrict, andThen, byteAt, wrap32]
  generalize z.natAbs = m
  split_ifs <;> omega

/-- With a `long` of four bytes the conversion is right exactly below `2^24`. -/
theorem zz4_iff (z : ℤ) (h : -2147483648 ≤ z ∧ z ≤ 2147483647) :
    zzToLong 4 shlStrict z = .ok z ↔ |z| < 2 ^ 24 := by
  rw [zz4 z h, Outcome.ok.injEq, abs_lt]
  obtain ⟨m, hm⟩ : ∃ m, m = z.natAbs := ⟨_, rfl⟩
  rw [← hm]
  norm_num
  split_ifs <;> omega

/-- With a `long` of eight bytes and the shift of the x86 processors. -/
theorem zz8 (z : ℤ) (h : |z| < 2 ^ 31) : zzToLong 8 shlX86 z = .ok z := by
  rw [abs_lt] at h
  norm_num at h
  have hr : -2 ^ (8 * 8 - 1) ≤ z ∧ z ≤ 2 ^ (8 * 8 - 1) - 1 := by norm_num; omega
  rw [zzToLong, if_pos hr]
  simp [bytesLoop, shlX86, andThen, byteAt, wrap32, wrap64]
  obtain ⟨m, hm⟩ : ∃ m, m = |z| := ⟨_, rfl⟩
  rw [← hm]
  have hz : (z < 0 ∧ m = -z) ∨ (0 ≤ z ∧ m = z) := by
    rcases abs_cases z with h | h
    · exact Or.inr ⟨h.2, hm.trans h.1⟩
    · exact Or.inl ⟨h.2, hm.trans h.1⟩
  have h0 : 0 ≤ m ∧ m < 2147483648 := by omega
  have h4 : m / 4294967296 = 0 := by omega
  have h5 : m / 1099511627776 = 0 := by omega
  have h6 : m / 281474976710656 = 0 := by omega
  have k3 : m / 16777216 % 256 * 16777216 % 4294967296 = m / 16777216 * 16777216 := by omega
  have k2 : m / 65536 % 256 * 65536 % 4294967296 = m / 65536 % 256 * 65536 := by omega
  have k1 : m / 256 % 256 * 256 % 4294967296 = m / 256 % 256 * 256 := by omega
  have k0 : m % 256 % 4294967296 = m % 256 := by omega
  have l3 : m / 16777216 * 16777216 < 2147483648 := by omega
  have l2 : m / 65536 % 256 * 65536 < 2147483648 := by omega
  have l1 : m / 256 % 256 * 256 < 2147483648 := by omega
  have l0 : m % 256 < 2147483648 := by omega
  have hs : (m / 16777216 * 16777216 + m / 65536 % 256 * 65536 + m / 256 % 256 * 256 + m % 256) % 18446744073709551616 = m := by
    omega
  simp only [h4, h5, h6, k3, k2, k1, k0, if_pos l3, if_pos l2, if_pos l1, if_pos l0]
  norm_num
  rw [hs]
  rcases hz with ⟨hz, hm⟩ | ⟨hz, hm⟩
  · rw [if_pos hz, if_neg (by omega)]
    omega
  · rw [if_neg (show ¬ z < 0 by omega), if_pos (by omega)]
    omega

/-- With a `long` of eight bytes every conversion shifts an `int` by 48 positions. -/
theorem zz8_strict (z : ℤ) (r : ℤ) : zzToLong 8 shlStrict z ≠ .ok r := by
  have h : bytesLoop 8 shlStrict z (8 - 1) 0 = .ub := by
    simp [bytesLoop, shlStrict, andThen]
  rw [zzToLong, h]
  by_cases hr : -2 ^ (8 * 8 - 1) ≤ z ∧ z ≤ 2 ^ (8 * 8 - 1) - 1
  · rw [if_pos hr]; simp [andThen]
  · rw [if_neg hr]; simp

/-! ### The factorisation -/

/-- What is assumed of `factor()` of NTL on `p`: the content and the non-constant factors with
their multiplicities. -/
def NtlOk (ntl : ℤ[X] → ℤ × List (ℤ[X] × ℕ)) (p : ℤ[X]) : Prop :=
  p = C (ntl p).1 * ((ntl p).2.map fun g => g.1 ^ g.2).prod ∧ ∀ g ∈ (ntl p).2, 1 ≤ g.1.natDegree ∧ 1 ≤ g.2

theorem rebuild_val {conv : ℤ → Outcome ℤ} {f : ℤ[X]} (h : ∀ i, conv (f.coeff i) = .ok (f.coeff i)) :
    ∀ (k : ℕ) (acc : ℤ[X]), rebuild conv f k acc = .ok (acc + ∑ i ∈ Finset.range k, C (f.coeff i) * X ^ i) := by
  intro k
  induction k with
  | zero => intro acc; simp [rebuild]
  | succ k ih =>
    intro acc
    rw [rebuild, h k, andThen, ih, Finset.sum_range_succ]
    by_cases h0 : f.coeff k = 0
    · rw [if_neg (by simp [h0]), h0]; simp
    · rw [if_pos h0]
      congr 1
      ring

theorem oneFactor_val {conv : ℤ → Outcome ℤ} {g : ℤ[X] × ℕ} (h : ∀ i, conv (g.1.coeff i) = .ok (g.1.coeff i))
    (h1 : g.2 = 1) (h2 : 1 ≤ g.1.natDegree) : oneFactor conv g = .ok g.1 := by
  rw [oneFactor, if_neg (by simp [h1]), if_neg (by omega), rebuild_val h, zero_add]
  congr 1
  exact (as_sum_range_C_mul_X_pow g.1).symm

theorem allFactors_val {conv : ℤ → Outcome ℤ} {l : List (ℤ[X] × ℕ)}
    (h : ∀ g ∈ l, (∀ i, conv (g.1.coeff i) = .ok (g.1.coeff i)) ∧ g.2 = 1 ∧ 1 ≤ g.1.natDegree) :
    allFactors conv l = .ok (l.map Prod.fst) := by
  induction l with
  | nil => rfl
  | cons g l ih =>
    obtain ⟨a, b, c⟩ := h g (by simp)
    rw [allFactors, oneFactor_val a b c, andThen, ih fun g hg => h g (by simp [hg]), andThen, List.map_cons]

/-- The factors of a square-free polynomial are simple. -/
theorem simple_of_squarefree {ntl : ℤ[X] → ℤ × List (ℤ[X] × ℕ)} {p : ℤ[X]} (h : NtlOk ntl p) (hs : Squarefree (AlgEq.ofInt p))
    {g : ℤ[X] × ℕ} (hg : g ∈ (ntl p).2) : g.2 = 1 := by
  obtain ⟨h1, h2⟩ := h
  obtain ⟨d1, d2⟩ := h2 g hg
  by_contra hne
  have hd : g.1 * g.1 ∣ p := by
    have : g.1 ^ g.2 ∣ p := by
      rw [h1]
      exact Dvd.dvd.mul_left (List.dvd_prod (List.mem_map.mpr ⟨g, hg, rfl⟩)) _
    refine dvd_trans ?_ this
    rw [← pow_two]
    exact pow_dvd_pow _ (by omega)
  have hq : AlgEq.ofInt g.1 * AlgEq.ofInt g.1 ∣ AlgEq.ofInt p := by
    have := Polynomial.map_dvd (Int.castRingHom ℚ) hd
    rwa [Polynomial.map_mul] at this
  have hu := natDegree_eq_zero_of_isUnit (hs _ hq)
  rw [AlgEq.ofInt, natDegree_map_eq_of_injective (RingHom.injective_int _)] at hu
  omega

/-- What the caller relies on: the returned factors are non-constant and their product is, up
to a constant, the polynomial; if none are returned the number is 1. -/
def Factorised (p : ℤ[X]) (m : ℕ) (l : List ℤ[X]) : Prop :=
  (m = 1 ∧ l = []) ∨
    (m = l.length ∧ (∀ f ∈ l, 1 ≤ f.natDegree) ∧ ∃ c : ℤ, p = C c * l.prod)

theorem polyFactor_val {bs : ℕ} {shl : ℕ → ℕ → Outcome ℤ} {ntl : ℤ[X] → ℤ × List (ℤ[X] × ℕ)} {p : ℤ[X]} (h : NtlOk ntl p)
    (hs : Squarefree (AlgEq.ofInt p))
    (hc : ∀ g ∈ (ntl p).2, ∀ i, zzToLong bs shl (g.1.coeff i) = .ok (g.1.coeff i)) :
    ∃ m l, polyFactor bs shl ntl p = .ok (m, l) ∧ Factorised p m l ∧
      (fits bs p → (ntl p).2.length ≠ 1 → m = (ntl p).2.length) := by
  rw [polyFactor]
  by_cases hf : fits bs p
  · rw [if_pos hf]
    by_cases h1 : (ntl p).2.length = 1
    · rw [if_pos h1]
      exact ⟨1, [], rfl, Or.inl ⟨rfl, rfl⟩, fun _ h => absurd h1 h⟩
    · rw [if_neg h1, allFactors_val (fun g hg => ⟨hc g hg, simple_of_squarefree h hs hg, (h.2 g hg).1⟩), andThen]
      refine ⟨_, _, rfl, Or.inr ⟨by simp, ?_, (ntl p).1, ?_⟩, fun _ _ => rfl⟩
      · intro f hf
        obtain ⟨g, hg, rfl⟩ := List.mem_map.mp hf
        exact (h.2 g hg).1
      · conv_lhs => rw [h.1]
        congr 2
        refine List.map_congr_left fun g hg => ?_
        rw [simple_of_squarefree h hs hg, pow_one]
  · rw [if_neg hf]
    exact ⟨1, [], rfl, Or.inl ⟨rfl, rfl⟩, fun h => absurd h hf⟩

/-! ### C113: small coefficients -/

/-- All coefficients of the factors found by NTL are less than `b` in absolute value. -/
def Small (b : ℤ) (l : List (ℤ[X] × ℕ)) : Prop := ∀ g ∈ l, ∀ i, |g.1.coeff i| < b

/-- On the x86 processors with a `long` of eight bytes: if the coefficients of the factors are
less than `2^31` in absolute value, the returned factors are those of NTL. -/
theorem C113_factors_64bit {ntl : ℤ[X] → ℤ × List (ℤ[X] × ℕ)} {p : ℤ[X]} (h : NtlOk ntl p)
    (hs : Squarefree (AlgEq.ofInt p)) (hc : Small (2 ^ 31) (ntl p).2) :
    ∃ m l, polyFactor 8 shlX86 ntl p = .ok (m, l) ∧ Factorised p m l ∧
      (fits 8 p → (ntl p).2.length ≠ 1 → m = (ntl p).2.length) :=
  polyFactor_val h hs fun g hg i => zz8 _ (hc g hg i)

/-- With a `long` of four bytes: the same below `2^24`, by the rules of the language alone. -/
theorem C113_factors_32bit {ntl : ℤ[X] → ℤ × List (ℤ[X] × ℕ)} {p : ℤ[X]} (h : NtlOk ntl p)
    (hs : Squarefree (AlgEq.ofInt p)) (hc : Small (2 ^ 24) (ntl p).2) :
    ∃ m l, polyFactor 4 shlStrict ntl p = .ok (m, l) ∧ Factorised p m l ∧
      (fits 4 p → (ntl p).2.length ≠ 1 → m = (ntl p).2.length) := by
  refine polyFactor_val h hs fun g hg i => ?_
  have hi := hc g hg i
  refine (zz4_iff _ ?_).mpr hi
  rw [abs_lt] at hi
  norm_num at hi
  omega

/-- The conclusion is what the root finder assumes of the factorisation. -/
theorem C113_good_factorizer {p : ℤ[X]} (hp : p ≠ 0) {m : ℕ} {l : List ℤ[X]} (h : Factorised p m l) (h1 : 1 < m) :
    (∀ f ∈ l.map AlgEq.ofInt, (∃ F : ℤ[X], f = AlgEq.ofInt F) ∧ 1 ≤ f.natDegree) ∧
    ∃ c : ℚ, c ≠ 0 ∧ AlgEq.ofInt p = C c * (l.map AlgEq.ofInt).prod := by
  rcases h with h | ⟨hm, hd, c, hc⟩
  · omega
  refine ⟨?_, (c : ℚ), ?_, ?_⟩
  · intro f hf
    obtain ⟨F, hF, rfl⟩ := List.mem_map.mp hf
    refine ⟨⟨F, rfl⟩, ?_⟩
    rw [AlgEq.ofInt, natDegree_map_eq_of_injective (RingHom.injective_int _)]
    exact hd F hF
  · intro h0
    have h0 : c = 0 := by exact_mod_cast h0
    rw [h0] at hc
    simp at hc
    exact hp hc
  · have : AlgEq.ofInt p = AlgEq.ofInt (C c * l.prod) := by rw [← hc]
    rw [this, AlgEq.ofInt, Polynomial.map_mul, Polynomial.map_C, Polynomial.map_list_prod]
    rfl

/-! ### C112: coefficients of any size -/

/-- `(x + 1) (x - a)`. -/
noncomputable def exPoly (a : ℤ) : ℤ[X] := (X + C 1) * (X - C a)

/-- NTL's answer on `exPoly a`. -/
noncomputable def exNtl (a : ℤ) : ℤ[X] → ℤ × List (ℤ[X] × ℕ) := fun _ => (1, [(X + C 1, 1), (X - C a, 1)])

theorem exNtl_ok (a : ℤ) : NtlOk (exNtl a) (exPoly a) := by
  refine ⟨by simp [exNtl, exPoly], ?_⟩
  intro g hg
  simp only [exNtl, List.mem_cons, List.not_mem_nil, or_false] at hg
  rcases hg with rfl | rfl
  · simp only [natDegree_X_add_C]; omega
  · simp only [natDegree_X_sub_C]; omega

theorem exPoly_squarefree {a : ℤ} (ha : a ≠ -1) : Squarefree (AlgEq.ofInt (exPoly a)) := by
  have h1 : AlgEq.ofInt (exPoly a) = (X - C (-1)) * (X - C (a : ℚ)) := by
    simp [exPoly, AlgEq.ofInt]
  rw [h1]
  have hne : (-1 : ℚ) - a ≠ 0 := by
    intro h
    apply ha
    have : (a : ℚ) = ((-1 : ℤ) : ℚ) := by push_cast; linarith
    exact_mod_cast this
  have hcop : IsCoprime (X - C (-1 : ℚ)) (X - C (a : ℚ)) :=
    isCoprime_X_sub_C_of_isUnit_sub (IsUnit.mk0 _ hne)
  exact squarefree_mul_iff.mpr
    ⟨hcop.isRelPrime, (irreducible_X_sub_C _).squarefree, (irreducible_X_sub_C _).squarefree⟩

theorem exPoly_natDegree (a : ℤ) : (exPoly a).natDegree = 2 := by
  rw [exPoly, natDegree_mul (X_add_C_ne_zero _) (X_sub_C_ne_zero _), natDegree_X_add_C, natDegree_X_sub_C]

theorem exPoly_eq (a : ℤ) : exPoly a = X ^ 2 + C (1 - a) * X - C a := by
  rw [exPoly, C_sub, C_1]; ring

theorem exPoly_fits {bs : ℕ} {a : ℤ} (h0 : -2 ^ (8 * bs - 1) < a) (h1 : a ≤ 2 ^ (8 * bs - 1)) (h2 : -a ≤ 2 ^ (8 * bs - 1) - 2)
    (h3 : 2 ≤ (2 : ℤ) ^ (8 * bs - 1)) : fits bs (exPoly a) := by
  intro i hi
  rw [exPoly_natDegree] at hi
  have : i = 0 ∨ i = 1 ∨ i = 2 := by omega
  have c0 : (exPoly a).coeff 0 = -a := by rw [exPoly_eq]; simp [-eq_intCast]
  have c1 : (exPoly a).coeff 1 = 1 - a := by rw [exPoly_eq]; simp [-eq_intCast, coeff_C]
  have c2 : (exPoly a).coeff 2 = 1 := by rw [exPoly_eq]; simp [-eq_intCast, coeff_one, coeff_C, coeff_X]
  rcases this with rfl | rfl | rfl
  · rw [c0]; omega
  · rw [c1]; omega
  · rw [c2]; omega

theorem oneFactor_linear {conv : ℤ → Outcome ℤ} {a b : ℤ} (h1 : conv 1 = .ok 1) (ha : conv a = .ok b) (hb : b ≠ 0) :
    oneFactor conv (X + C a, 1) = .ok (X + C b) := by
  have c0 : (X + C a : ℤ[X]).coeff 0 = a := by simp [-eq_intCast]
  have c1 : (X + C a : ℤ[X]).coeff 1 = 1 := by simp [-eq_intCast, coeff_C]
  rw [oneFactor, if_neg (by simp)]
  simp only [natDegree_X_add_C]
  rw [if_neg (by omega)]
  rw [rebuild, c1, h1, andThen, if_pos one_ne_zero, rebuild, c0, ha, andThen, if_pos hb, rebuild]
  simp

theorem exPoly_run {bs : ℕ} {shl : ℕ → ℕ → Outcome ℤ} {a b : ℤ} (hf : fits bs (exPoly a)) (h1 : zzToLong bs shl 1 = .ok 1)
    (ha : zzToLong bs shl (-a) = .ok b) (hb : b ≠ 0) :
    polyFactor bs shl (exNtl a) (exPoly a) = .ok (2, [X + C 1, X + C b]) := by
  have hl : ((exNtl a (exPoly a)).2.length) = 2 := rfl
  have hx : (X - C a : ℤ[X]) = X + C (-a) := by rw [C_neg]; ring
  rw [polyFactor, if_pos hf, hl, if_neg (by omega)]
  simp only [exNtl, allFactors, hx, oneFactor_linear h1 h1 one_ne_zero, oneFactor_linear h1 ha hb, andThen]

/-- The product of the wrong factors. -/
theorem ex_not_factorised {a b : ℤ} (hab : b ≠ -a) : ¬ Factorised (exPoly a) 2 [X + C 1, X + C b] := by
  rintro (⟨h, _⟩ | ⟨_, _, c, hc⟩)
  · omega
  have h1 := congrArg (fun q : ℤ[X] => q.coeff 2) hc
  have h2 := congrArg (fun q : ℤ[X] => q.eval a) hc
  have e : ([X + C 1, X + C b] : List ℤ[X]).prod = X ^ 2 + C (1 + b) * X + C b := by
    rw [List.prod_cons, List.prod_singleton, C_add, C_1]; ring
  rw [e] at h1
  simp only [exPoly_eq] at h1
  simp [-eq_intCast, coeff_one, coeff_C, coeff_X] at h1
  subst h1
  have h3 := congrArg (fun q : ℤ[X] => q.coeff 0) hc
  rw [e] at h3
  simp only [exPoly_eq] at h3
  simp [-eq_intCast, coeff_one, coeff_C, coeff_X] at h3
  omega

/-- On the x86 processors with a `long` of eight bytes the factor `x - 2^31` of
`(x + 1) (x - 2^31)` is returned as `x + 2^31`. -/
theorem C112_64bit_refuted :
    NtlOk (exNtl (2 ^ 31)) (exPoly (2 ^ 31)) ∧ Squarefree (AlgEq.ofInt (exPoly (2 ^ 31))) ∧ fits 8 (exPoly (2 ^ 31)) ∧
    polyFactor 8 shlX86 (exNtl (2 ^ 31)) (exPoly (2 ^ 31)) = .ok (2, [X + C 1, X + C (2 ^ 31)]) ∧
    ¬ Factorised (exPoly (2 ^ 31)) 2 [X + C 1, X + C (2 ^ 31)] := by
  have hf : fits 8 (exPoly (2 ^ 31)) := exPoly_fits (by norm_num) (by norm_num) (by norm_num) (by norm_num)
  refine ⟨exNtl_ok _, exPoly_squarefree (by norm_num), hf, ?_, ex_not_factorised (by norm_num)⟩
  refine exPoly_run hf (zz8 1 (by norm_num)) ?_ (by norm_num)
  norm_num [zzToLong, bytesLoop, shlX86, andThen, byteAt, wrap]

/-- By the rules of the language, with a `long` of eight bytes no factorisation into two or
more factors has a defined result: the shift by 48 positions is undefined. -/
theorem C112_undefined_refuted {ntl : ℤ[X] → ℤ × List (ℤ[X] × ℕ)} {p : ℤ[X]} (hf : fits 8 p) (h2 : 2 ≤ (ntl p).2.length)
    (r : ℕ × List ℤ[X]) : polyFactor 8 shlStrict ntl p ≠ .ok r := by
  rw [polyFactor, if_pos hf, if_neg (by omega)]
  match hl : (ntl p).2 with
  | [] => rw [hl] at h2; simp at h2
  | g :: l =>
    have h1 : ∀ q, oneFactor (zzToLong 8 shlStrict) g ≠ .ok q := by
      intro q
      rw [oneFactor]
      by_cases ha : g.2 ≠ 1
      · rw [if_pos ha]; simp
      · rw [if_neg ha]
        by_cases hb : g.1.natDegree = 0
        · rw [if_pos hb]; simp
        · rw [if_neg hb, rebuild]
          match hz : zzToLong 8 shlStrict (g.1.coeff g.1.natDegree) with
          | .ok t => exact absurd hz (zz8_strict _ _)
          | .ub => simp [andThen]
          | .throws => simp [andThen]
    rw [allFactors]
    match ho : oneFactor (zzToLong 8 shlStrict) g with
    | .ok q => exact absurd ho (h1 q)
    | .ub => simp [andThen]
    | .throws => simp [andThen]

/-- With a `long` of four bytes the factor `x - (2^24 + 1)` is returned as `x - 1`. -/
theorem C112_32bit_refuted :
    NtlOk (exNtl (2 ^ 24 + 1)) (exPoly (2 ^ 24 + 1)) ∧ Squarefree (AlgEq.ofInt (exPoly (2 ^ 24 + 1))) ∧ fits 4 (exPoly (2 ^ 24 + 1)) ∧
    polyFactor 4 shlStrict (exNtl (2 ^ 24 + 1)) (exPoly (2 ^ 24 + 1)) = .ok (2, [X + C 1, X + C (-1)]) ∧
    ¬ Factorised (exPoly (2 ^ 24 + 1)) 2 [X + C 1, X + C (-1)] := by
  have hf : fits 4 (exPoly (2 ^ 24 + 1)) := exPoly_fits (by norm_num) (by norm_num) (by norm_num) (by norm_num)
  refine ⟨exNtl_ok _, exPoly_squarefree (by norm_num), hf, ?_, ex_not_factorised (by norm_num)⟩
  refine exPoly_run hf ((zz4_iff 1 (by norm_num)).mpr (by norm_num)) ?_ (by norm_num)
  norm_num [zzToLong, bytesLoop, shlStrict, andThen, byteAt, wrap]

/-- With a `long` of four bytes exactly the coefficients below `2^24` are converted right. -/
theorem C112_32bit_exact_partial (z : ℤ) (h : -2 ^ 31 ≤ z ∧ z ≤ 2 ^ 31 - 1) :
    zzToLong 4 shlStrict z = .ok z ↔ |z| < 2 ^ 24 := zz4_iff z (by norm_num at h; omega)

/-- Non-vacuity of C113: `(x + 1) (x - 5)` is factorised. -/
theorem C113_nonvacuous : NtlOk (exNtl 5) (exPoly 5) ∧ Squarefree (AlgEq.ofInt (exPoly 5)) ∧ Small (2 ^ 24) (exNtl 5 (exPoly 5)).2 ∧
    fits 4 (exPoly 5) ∧ polyFactor 8 shlX86 (exNtl 5) (exPoly 5) = .ok (2, [X + C 1, X + C (-5)]) := by
  refine ⟨exNtl_ok _, exPoly_squarefree (by norm_num), ?_, exPoly_fits (by norm_num) (by norm_num) (by norm_num) (by norm_num), ?_⟩
  · intro g hg i
    simp only [exNtl, List.mem_cons, List.not_mem_nil, or_false] at hg
    rcases hg with rfl | rfl
    · simp only [coeff_add, coeff_X, coeff_C]
      split_ifs <;> norm_num
    · simp only [coeff_sub, coeff_X, coeff_C]
      split_ifs <;> norm_num
  · exact exPoly_run (exPoly_fits (by norm_num) (by norm_num) (by norm_num) (by norm_num)) (zz8 1 (by norm_num)) (zz8 _ (by norm_num))
      (by norm_num)

end Purrs.PolyFactor
