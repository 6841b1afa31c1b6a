import Verif.Model.IntUtil
import Mathlib.Data.Int.GCD
import Mathlib.Data.Nat.Prime.Basic
import Mathlib.Tactic.Ring
import Mathlib.Tactic.Linarith
import Mathlib.Tactic.Positivity
import Mathlib.Tactic.NormNum.Prime
import Mathlib.Data.Rat.Lemmas
import Mathlib.Algebra.BigOperators.Group.List.Basic

/-!
# C02–C05, C55: integer utilities
-/

namespace Purrs

/-! ## C02 gcd -/

/-- Specification: `g` is a greatest common divisor of `a` and `b` (up to sign). -/
def IsGcd (g a b : Int) : Prop :=
  g ∣ a ∧ g ∣ b ∧ ∀ d : Int, d ∣ a → d ∣ b → d ∣ g

theorem isGcd_step {g n m : Int} (h : IsGcd g m (n.tmod m)) : IsGcd g n m := by
  obtain ⟨h1, h2, h3⟩ := h
  have e : m * n.tdiv m + n.tmod m = n := Int.mul_tdiv_add_tmod n m
  refine ⟨?_, h1, fun d hn hm => h3 d hm ?_⟩
  · rw [← e]; exact dvd_add (Dvd.dvd.mul_right h1 _) h2
  · have : n.tmod m = n - m * n.tdiv m := by linarith
    rw [this]; exact dvd_sub hn (Dvd.dvd.mul_right hm _)

/-- `gcd(n, m)` returns a greatest common divisor, for all integers (termination is
part of the definition being accepted). -/
theorem C02_gcd_is_gcd (n m : Int) : IsGcd (gcdLoop n m) n m := by
  fun_induction gcdLoop n m with
  | case1 n => exact ⟨dvd_refl _, dvd_zero _, fun d h _ => h⟩
  | case2 n m hm ih => exact isGcd_step ih

/-- Up to sign the result is Mathlib's gcd. -/
theorem C02_gcd_natAbs (n m : Int) : (gcdLoop n m).natAbs = Int.gcd n m := by
  obtain ⟨h1, h2, h3⟩ := C02_gcd_is_gcd n m
  apply Nat.dvd_antisymm
  · have := Int.dvd_coe_gcd h1 h2
    exact Int.natAbs_dvd_natAbs.mpr this
  · have := h3 (Int.gcd n m) (Int.gcd_dvd_left ..) (Int.gcd_dvd_right ..)
    have := Int.natAbs_dvd_natAbs.mpr this
    simpa using this

/-- On non-negative operands the sign is right too. -/
theorem C02_gcd_nonneg (n m : Int) (hn : 0 ≤ n) (hm : 0 ≤ m) :
    gcdLoop n m = Int.gcd n m := by
  have h : 0 ≤ gcdLoop n m := by
    fun_induction gcdLoop n m with
    | case1 n => exact hn
    | case2 n m h0 ih => exact ih hm (Int.tmod_nonneg _ hn)
  rw [← C02_gcd_natAbs, Int.natAbs_of_nonneg h]

/-- On machine integers, the loop is free of undefined behaviour and equals the
mathematical loop unless it is called with `n = INT_MIN`. -/
theorem C02_gcd_machine (n m : Int) (hn : InInt n) (hm : InInt m)
    (h1 : n ≠ -2147483648) (h2 : m ≠ -2147483648) :
    gcd32 n m = .ok (gcdLoop n m) := by
  fun_induction gcd32 n m with
  | case1 n => simp [gcdLoop]
  | case2 => simp_all
  | case3 n m h0 h ih =>
    rw [gcdLoop, if_neg h0]
    have hb : (n.tmod m).natAbs < m.natAbs := by
      rw [Int.natAbs_tmod]; exact Nat.mod_lt _ (by omega)
    unfold InInt at *
    apply ih hm (by omega) h2 (by omega)

/-- The only machine inputs on which the first step is undefined behaviour. -/
theorem C02_gcd_machine_ub : gcd32 (-2147483648) (-1) = .ub := by
  rw [gcd32]; simp

example : gcdLoop 12 (-18) = -6 := by simp [gcdLoop]
example : gcd32 (-12) 18 = .ok 6 := by simp [gcd32]
example : ∃ n m, InInt n ∧ InInt m ∧ n ≠ -2147483648 ∧ m ≠ -2147483648 ∧ gcd32 n m = .ok 21 :=
  ⟨1071, 462, by decide, by decide, by decide, by decide, by simp [gcd32]⟩

/-! ## C03 lcm of a vector -/

/-- The lcm of a vector is a common multiple, and divides every common multiple. -/
theorem C03_lcm_is_lcm (v : List Int) :
    (∀ a ∈ v, a ∣ lcmVec v) ∧ ∀ c : Int, (∀ a ∈ v, a ∣ c) → lcmVec v ∣ c := by
  induction v with
  | nil => simp [lcmVec]
  | cons a v ih =>
    obtain ⟨h1, h2⟩ := ih
    have e : lcmVec (a :: v) = (Int.lcm (lcmVec v) a : Int) := rfl
    rw [e]
    refine ⟨?_, ?_⟩
    · intro b hb
      rcases List.mem_cons.mp hb with rfl | hb
      · exact Int.dvd_lcm_right ..
      · exact (h1 b hb).trans (Int.dvd_lcm_left ..)
    · intro c hc
      exact Int.coe_lcm_dvd (h2 c fun b hb => hc b (by simp [hb])) (hc a (by simp))

/-- The lcm is positive when no entry is zero: hence it is *the* least one. -/
theorem C03_lcm_pos (v : List Int) (h : ∀ a ∈ v, a ≠ 0) : 0 < lcmVec v := by
  induction v with
  | nil => simp [lcmVec]
  | cons a v ih =>
    have e : lcmVec (a :: v) = (Int.lcm (lcmVec v) a : Int) := rfl
    rw [e]
    have h1 := ih fun b hb => h b (by simp [hb])
    have h2 := h a (by simp)
    have h3 : lcmVec v ≠ 0 := by omega
    have := Nat.pos_of_ne_zero (Int.lcm_ne_zero h3 h2)
    exact_mod_cast this

example : lcmVec [4, 6, 10] = 60 := by decide

/-! ## C04 partial factorization -/

/-- Specification: the number denoted by a factorization. -/
def factorizationValue (l : List (Nat × Nat)) : Nat :=
  (l.map fun p => p.1 ^ p.2).prod

theorem factorizationValue_append (l₁ l₂ : List (Nat × Nat)) :
    factorizationValue (l₁ ++ l₂) = factorizationValue l₁ * factorizationValue l₂ := by
  simp [factorizationValue]

theorem stripFactor_spec (i m k : Nat) :
    (stripFactor i m k).1 * i ^ (stripFactor i m k).2 = m * i ^ k ∧
    k ≤ (stripFactor i m k).2 ∧
    (0 < m → 0 < (stripFactor i m k).1) ∧
    (2 ≤ i → 0 < m → ¬ i ∣ (stripFactor i m k).1) ∧
    (stripFactor i m k).1 ∣ m ∧
    ((stripFactor i m k).2 = k → (stripFactor i m k).1 = m) ∧
    (k < (stripFactor i m k).2 → i ∣ m) := by
  fun_induction stripFactor i m k with
  | case1 m k h ih =>
    obtain ⟨h1, h2, h3, h4, h5, h6, h7⟩ := ih
    have hd : i ∣ m := Nat.dvd_of_mod_eq_zero h.2.2
    have hp : 0 < m / i := Nat.div_pos (Nat.le_of_dvd h.2.1 hd) (by omega)
    refine ⟨?_, by omega, fun _ => h3 hp, fun hi _ => h4 hi hp,
      h5.trans (Nat.div_dvd_of_dvd hd), fun h => by omega, fun _ => hd⟩
    rw [h1, pow_succ]
    calc m / i * (i ^ k * i) = (m / i * i) * i ^ k := by ring
      _ = m * i ^ k := by rw [Nat.div_mul_cancel hd]
  | case2 m k h =>
    refine ⟨rfl, le_refl _, fun h => h, fun hi hm hd => h ⟨hi, hm, Nat.mod_eq_zero_of_dvd hd⟩,
      dvd_refl _, fun _ => rfl, fun h => absurd h (lt_irrefl _)⟩

/-- "Every prime factor of `m` is at least `i`." -/
def NoSmallFactor (i m : Nat) : Prop := ∀ p, p.Prime → p ∣ m → i ≤ p

theorem NoSmallFactor.dvd {i m m' : Nat} (h : NoSmallFactor i m) (hd : m' ∣ m) :
    NoSmallFactor i m' := fun p hp hpm => h p hp (hpm.trans hd)

theorem NoSmallFactor.self_prime {i m : Nat} (h : NoSmallFactor i m) (hi : 2 ≤ i) (hm : i ∣ m) :
    i.Prime := by
  have h1 : i ≠ 1 := by omega
  have := h i.minFac (Nat.minFac_prime h1) ((Nat.minFac_dvd i).trans hm)
  have h2 := Nat.minFac_le (n := i) (by omega)
  have h3 : i.minFac = i := le_antisymm h2 this
  rw [← h3]; exact Nat.minFac_prime h1

theorem NoSmallFactor.prime_of_lt_sq {i m : Nat} (h : NoSmallFactor i m) (h1 : 1 < m)
    (h2 : m < i * i) : m.Prime := by
  by_contra hp
  have a := h m.minFac (Nat.minFac_prime (by omega)) (Nat.minFac_dvd m)
  have b := Nat.minFac_sq_le_self (by omega) hp
  have : i * i ≤ m.minFac ^ 2 := by rw [pow_two]; exact Nat.mul_le_mul a a
  omega

/-- Conditions the accumulated list satisfies. -/
def GoodAcc (i : Nat) (acc : List (Nat × Nat)) : Prop :=
  (∀ p ∈ acc, p.1.Prime ∧ 1 ≤ p.2 ∧ p.1 < i) ∧ (acc.map Prod.fst).Nodup

theorem GoodAcc.snoc {i j k : Nat} {acc : List (Nat × Nat)} (h : GoodAcc i acc)
    (hp : i.Prime) (hk : 0 < k) (hij : i < j) : GoodAcc j (acc ++ [(i, k)]) := by
  obtain ⟨h1, h2⟩ := h
  refine ⟨?_, ?_⟩
  · intro p hpm
    rcases List.mem_append.mp hpm with hpm | hpm
    · have := h1 p hpm; exact ⟨this.1, this.2.1, by omega⟩
    · simp at hpm; subst hpm; exact ⟨hp, hk, hij⟩
  · rw [List.map_append, List.nodup_append]
    refine ⟨h2, by simp, ?_⟩
    intro a ha b hb
    simp at hb; subst hb
    obtain ⟨p, hpm, rfl⟩ := List.mem_map.mp ha
    have := (h1 p hpm).2.2
    omega

theorem GoodAcc.mono {i j : Nat} {acc : List (Nat × Nat)} (h : GoodAcc i acc) (hij : i ≤ j) :
    GoodAcc j acc :=
  ⟨fun p hp => ⟨(h.1 p hp).1, (h.1 p hp).2.1, lt_of_lt_of_le (h.1 p hp).2.2 hij⟩, h.2⟩

theorem factorLoop_spec (t i m : Nat) (acc : List (Nat × Nat)) (hm : 0 < m) (hi : 3 ≤ i)
    (hodd : i % 2 = 1) (hodd' : ¬ 2 ∣ m)
    (hs : NoSmallFactor i m) (ha : GoodAcc i acc) :
    factorizationValue (factorLoop t i m acc).2 * (factorLoop t i m acc).1
      = factorizationValue acc * m ∧
    0 < (factorLoop t i m acc).1 ∧
    ∃ j, GoodAcc j (factorLoop t i m acc).2 ∧ NoSmallFactor j (factorLoop t i m acc).1 ∧
      (t ≤ j ∨ (factorLoop t i m acc).1 < j * j) := by
  fun_induction factorLoop t i m acc with
  | case1 i m acc h r ih =>
    obtain ⟨s1, s2, s3, s4, s5, s6, s7⟩ := stripFactor_spec i m 0
    have hr : r = stripFactor i m 0 := rfl
    rw [← hr] at s1 s2 s3 s4 s5 s6 s7
    have hp : 0 < r.1 := s3 hm
    have n2 : ¬ 2 ∣ r.1 := fun h => hodd' (h.trans s5)
    have ns : NoSmallFactor (i + 2) r.1 := by
      intro p hpp hpd
      have h1 : i ≤ p := hs.dvd s5 p hpp hpd
      have h2 : p ≠ i := by
        rintro rfl; exact s4 (by omega) hm hpd
      have h3 : p ≠ i + 1 := by
        rintro rfl
        exact n2 (Dvd.dvd.trans ⟨(i+1)/2, by omega⟩ hpd)
      omega
    have ga : GoodAcc (i + 2) (if 0 < r.2 then acc ++ [(i, r.2)] else acc) := by
      split
      · rename_i hk
        exact ha.snoc (hs.self_prime (by omega) (s7 hk)) hk (by omega)
      · exact ha.mono (by omega)
    obtain ⟨i1, i2, i3⟩ := ih hp (by omega) (by omega) n2 ns ga
    refine ⟨?_, i2, i3⟩
    refine i1.trans ?_
    split
    · rw [factorizationValue_append]
      have : factorizationValue [(i, r.2)] = i ^ r.2 := by simp [factorizationValue]
      rw [this, mul_assoc, mul_comm (i ^ r.2), s1]; simp
    · rename_i hk
      have : r.2 = 0 := by omega
      rw [s6 this]
  | case2 i m acc h =>
    refine ⟨rfl, hm, i, ha, hs, ?_⟩
    by_cases hit : i < t
    · right; by_contra hc; exact h ⟨hit, by omega⟩
    · left; omega

/-- For each nonzero integer the returned bases and exponents multiply to its
absolute value. -/
theorem C04_partialFactor_value (n : Int) (hn : n ≠ 0) :
    factorizationValue (partialFactor n) = n.natAbs := by
  obtain ⟨s1, s2, s3, s4, s5, s6, s7⟩ := stripFactor_spec 2 n.natAbs 0
  have hm : 0 < n.natAbs := by omega
  set r := stripFactor 2 n.natAbs 0 with hr
  have hr1 := s3 hm
  have hodd := s4 (le_refl 2) hm
  have ns : NoSmallFactor 3 r.1 := by
    intro p hp hd
    have := hp.two_le
    have : p ≠ 2 := by rintro rfl; exact hodd hd
    omega
  have ga : GoodAcc 3 (if 0 < r.2 then [(2, r.2)] else []) := by
    split
    · rename_i h
      exact GoodAcc.snoc (i := 2) (acc := []) ⟨by simp, by simp⟩ Nat.prime_two h (by omega)
    · exact ⟨by simp, by simp⟩
  obtain ⟨f1, f2, j, f3, f4, f5⟩ := factorLoop_spec 100 3 r.1 _ hr1 (le_refl 3) (by rfl) hodd ns ga
  have e0 : factorizationValue (if 0 < r.2 then [(2, r.2)] else []) * r.1 = n.natAbs := by
    split
    · simp only [factorizationValue, List.map_cons, List.map_nil, List.prod_cons, List.prod_nil]
      rw [mul_one, mul_comm, s1]; simp
    · rename_i h
      have : r.2 = 0 := by omega
      simp [factorizationValue, s6 this]
  rw [e0] at f1
  unfold partialFactor
  simp only [← hr]
  set f := factorLoop 100 3 r.1 (if 0 < r.2 then [(2, r.2)] else []) with hf
  by_cases h1 : 1 < f.1
  · rw [if_pos h1, if_neg (by omega), factorizationValue_append, ← f1]
    simp [factorizationValue]
  · have h2 : f.1 = 1 := by omega
    rw [if_neg h1]
    split
    · rw [factorizationValue_append, ← f1, h2]; simp [factorizationValue]
    · rw [← f1, h2]; simp

/-- Shape of the factorization of an integer other than `0, 1, -1`: exponents are at
least one, bases are distinct and greater than one, and every base below `101²` (in
particular every base found by trial division) is prime: only a base of at least
`101²` may be composite. -/
theorem C04_partialFactor_shape (n : Int) (hn : 2 ≤ n.natAbs) :
    (∀ p ∈ partialFactor n, 1 ≤ p.2 ∧ 2 ≤ p.1 ∧ (p.1 < 10201 → p.1.Prime)) ∧
    ((partialFactor n).map Prod.fst).Nodup := by
  obtain ⟨s1, s2, s3, s4, s5, s6, s7⟩ := stripFactor_spec 2 n.natAbs 0
  have hm : 0 < n.natAbs := by omega
  have hval := C04_partialFactor_value n (by omega)
  set r := stripFactor 2 n.natAbs 0 with hr
  have hr1 := s3 hm
  have hodd := s4 (le_refl 2) hm
  have ns : NoSmallFactor 3 r.1 := by
    intro p hp hd
    have := hp.two_le
    have : p ≠ 2 := by rintro rfl; exact hodd hd
    omega
  have ga : GoodAcc 3 (if 0 < r.2 then [(2, r.2)] else []) := by
    split
    · rename_i h
      exact GoodAcc.snoc (i := 2) (acc := []) ⟨by simp, by simp⟩ Nat.prime_two h (by omega)
    · exact ⟨by simp, by simp⟩
  obtain ⟨f1, f2, j, f3, f4, f5⟩ := factorLoop_spec 100 3 r.1 _ hr1 (le_refl 3) (by rfl) hodd ns ga
  unfold partialFactor at hval ⊢
  simp only [← hr] at hval ⊢
  set f := factorLoop 100 3 r.1 (if 0 < r.2 then [(2, r.2)] else []) with hf
  have hcl : ∀ p ∈ f.2, 1 ≤ p.2 ∧ 2 ≤ p.1 ∧ (p.1 < 10201 → p.1.Prime) := fun p hp =>
    ⟨(f3.1 p hp).2.1, (f3.1 p hp).1.two_le, fun _ => (f3.1 p hp).1⟩
  by_cases h1 : 1 < f.1
  · rw [if_pos h1, if_neg (by omega)]
    -- the index where the loop stopped is at least 101 if it stopped on the threshold
    have hj : f.1 < 10201 → f.1.Prime := by
      intro hlt
      rcases f5 with hj | hj
      · by_contra hp
        have a := f4 f.1.minFac (Nat.minFac_prime (by omega)) (Nat.minFac_dvd _)
        have b := Nat.minFac_sq_le_self (by omega) hp
        have hpr := Nat.minFac_prime (n := f.1) (by omega)
        have c : f.1.minFac ≠ 100 := by
          intro h; rw [h] at hpr; exact absurd hpr (by norm_num)
        have d : 101 ≤ f.1.minFac := by omega
        have : 101 * 101 ≤ f.1.minFac ^ 2 := by rw [pow_two]; exact Nat.mul_le_mul d d
        omega
      · exact f4.prime_of_lt_sq h1 hj
    refine ⟨?_, ?_⟩
    · intro p hp
      rcases List.mem_append.mp hp with hp | hp
      · exact hcl p hp
      · simp at hp; subst hp; exact ⟨le_refl _, by show 2 ≤ f.1; omega, hj⟩
    · rw [List.map_append, List.nodup_append]
      refine ⟨f3.2, by simp, ?_⟩
      intro a ha b hb
      simp at hb; subst hb
      obtain ⟨p, hpm, rfl⟩ := List.mem_map.mp ha
      have q1 := (f3.1 p hpm).2.2
      intro he
      have := f4 p.1 (f3.1 p hpm).1 (by rw [he])
      omega
  · rw [if_neg h1] at hval ⊢
    split
    · rename_i h3
      exfalso
      have h5 := h3.2
      rw [List.length_eq_zero_iff] at h5
      rw [if_pos h3, h5] at hval
      simp [factorizationValue] at hval
      omega
    · exact ⟨hcl, f3.2⟩

/-- The bases are primes or products of primes above 100: a prime factor of a base is the
base itself or at least 101. -/
theorem C04_partialFactor_small_primes (n : Int) (hn : 2 ≤ n.natAbs) {b : Nat × Nat} {p : Nat}
    (hb : b ∈ partialFactor n) (hp : p.Prime) (hd : p ∣ b.1) : p = b.1 ∨ 101 ≤ p := by
  obtain ⟨s1, s2, s3, s4, s5, s6, s7⟩ := stripFactor_spec 2 n.natAbs 0
  have hm : 0 < n.natAbs := by omega
  have hval := C04_partialFactor_value n (by omega)
  set r := stripFactor 2 n.natAbs 0 with hr
  have hr1 := s3 hm
  have hodd := s4 (le_refl 2) hm
  have ns : NoSmallFactor 3 r.1 := by
    intro p hp hd
    have := hp.two_le
    have : p ≠ 2 := by rintro rfl; exact hodd hd
    omega
  have ga : GoodAcc 3 (if 0 < r.2 then [(2, r.2)] else []) := by
    split
    · rename_i h
      exact GoodAcc.snoc (i := 2) (acc := []) ⟨by simp, by simp⟩ Nat.prime_two h (by omega)
    · exact ⟨by simp, by simp⟩
  obtain ⟨f1, f2, j, f3, f4, f5⟩ := factorLoop_spec 100 3 r.1 _ hr1 (le_refl 3) (by rfl) hodd ns ga
  unfold partialFactor at hb hval
  simp only [← hr] at hb hval
  set f := factorLoop 100 3 r.1 (if 0 < r.2 then [(2, r.2)] else []) with hf
  have hcl : ∀ q ∈ f.2, p ∣ q.1 → p = q.1 := fun q hq h =>
    (Nat.prime_dvd_prime_iff_eq hp (f3.1 q hq).1).mp h
  by_cases h1 : 1 < f.1
  · rw [if_pos h1, if_neg (by omega)] at hb
    rcases List.mem_append.mp hb with hb | hb
    · exact Or.inl (hcl b hb hd)
    · simp at hb
      have hb1 : b.1 = f.1 := by rw [hb]
      rw [hb1] at hd ⊢
      rcases f5 with hj | hj
      · right
        have := f4 p hp hd
        have c : p ≠ 100 := by
          intro h; rw [h] at hp; exact absurd hp (by norm_num)
        omega
      · exact Or.inl ((Nat.prime_dvd_prime_iff_eq hp (f4.prime_of_lt_sq h1 hj)).mp hd)
  · rw [if_neg h1] at hb hval
    split at hb
    · rename_i h3
      exfalso
      have h5 := h3.2
      rw [List.length_eq_zero_iff] at h5
      rw [if_pos h3, h5] at hval
      simp [factorizationValue] at hval
      omega
    · exact Or.inl (hcl b hb hd)

/-- Units are returned as `1^1`. -/
theorem C04_partialFactor_unit (n : Int) (hn : n.natAbs = 1) : partialFactor n = [(1, 1)] := by
  have e : stripFactor 2 1 0 = (1, 0) := by rw [stripFactor]; simp
  have e2 : factorLoop 100 3 1 [] = (1, []) := by rw [factorLoop]; simp
  simp [partialFactor, hn, e, e2]

/-- The factorization is *partial*: a composite base of size at least `101²` is
really possible. -/
theorem C04_partialFactor_composite_base : stripFactor 2 10403 0 = (10403, 0) ∧
    ¬ Nat.Prime 10403 ∧ 10201 ≤ 10403 := by
  refine ⟨by rw [stripFactor]; simp, by norm_num, by norm_num⟩

example : (2 : Nat) ≤ (-360 : Int).natAbs := by decide

/-! ## C05 divisors -/

theorem divisorsLoop_mem (mx m i j : Nat) (hm : 2 ≤ m) (hmx : m < mx * mx) (hi : 1 ≤ i)
    (hj : i = 1 ∧ j = m ∨ 2 ≤ i ∧ j = m / (i - 1)) (d : Nat) :
    d ∈ divisorsLoop mx m i j ↔
      d ∣ m ∧ (i ≤ d ∧ d * d ≤ m ∨ i ≤ m / d ∧ m < d * d) := by
  fun_induction divisorsLoop mx m i j with
  | case1 i j h j' ih =>
    obtain ⟨h1, h2⟩ := h
    have ihh := ih (by omega) (Or.inr ⟨by omega, by simp [j']⟩)
    rw [List.mem_append, ihh]
    have key : (d ∈ (if m % i = 0 then (if i < j' then [i, j'] else [i]) else [])) ↔
        d ∣ m ∧ (i = d ∧ d * d ≤ m ∨ i = m / d ∧ m < d * d) := by
      by_cases hr : m % i = 0
      · have hdv : i ∣ m := Nat.dvd_of_mod_eq_zero hr
        have hij : i * j' = m := Nat.mul_div_cancel' hdv
        have hii : i * i ≤ m := by
          rcases hj with ⟨rfl, rfl⟩ | ⟨h3, h4⟩
          · omega
          · -- i < m/(i-1), i.e. (i+1)(i-1) ≤ m, and i | m
            have : (i + 1) * (i - 1) ≤ m := by
              have : i + 1 ≤ m / (i - 1) := by omega
              exact (Nat.le_div_iff_mul_le (by omega)).mp this
            obtain ⟨k, rfl⟩ : ∃ k, i = k + 1 := ⟨i - 1, by omega⟩
            simp at this
            by_contra hc
            have h5 : j' < k + 1 := by
              by_contra h6
              have : (k+1) * (k+1) ≤ (k+1) * j' := Nat.mul_le_mul_left _ (by omega)
              omega
            have h7 : (k+1) * j' ≤ (k + 1) * k := Nat.mul_le_mul_left _ (by omega)
            have h8 : (k + 1 + 1) * k = (k+1) * k + k := by ring
            omega
        have hjj : i ≤ j' := by
          by_contra h6
          have : i * j' < i * i := Nat.mul_lt_mul_of_pos_left (by omega) (by omega)
          omega
        rw [if_pos hr]
        constructor
        · intro hmem
          by_cases hlt : i < j'
          · rw [if_pos hlt] at hmem
            simp at hmem
            rcases hmem with rfl | rfl
            · exact ⟨hdv, Or.inl ⟨rfl, hii⟩⟩
            · refine ⟨⟨i, by rw [mul_comm]; exact hij.symm⟩, Or.inr ⟨?_, ?_⟩⟩
              · rw [← hij]; exact (Nat.mul_div_cancel _ (by omega)).symm
              · rw [← hij]; exact Nat.mul_lt_mul_of_pos_right hlt (by omega)
          · rw [if_neg hlt] at hmem
            simp at hmem; subst hmem
            exact ⟨hdv, Or.inl ⟨rfl, hii⟩⟩
        · rintro ⟨hd, ⟨rfl, _⟩ | ⟨he, hlt⟩⟩
          · split <;> simp
          · have hd' : d = j' := by
              have h9 : i * d = m := by rw [he]; exact Nat.div_mul_cancel hd
              have : i * d = i * j' := by omega
              exact Nat.eq_of_mul_eq_mul_left (by omega) this
            subst hd'
            have : i < j' := by
              by_contra h6
              have : i = j' := by omega
              rw [← this] at hlt; omega
            rw [if_pos this]; simp
      · rw [if_neg hr]
        constructor
        · intro h; simp at h
        · rintro ⟨hd, ⟨rfl, _⟩ | ⟨he, _⟩⟩
          · exact absurd (Nat.mod_eq_zero_of_dvd hd) hr
          · exact absurd (Nat.mod_eq_zero_of_dvd ⟨d, by rw [he]; exact (Nat.div_mul_cancel hd).symm⟩) hr
    rw [key]
    constructor
    · rintro (⟨a, ⟨rfl, b⟩ | ⟨b, c⟩⟩ | ⟨a, ⟨b, c⟩ | ⟨b, c⟩⟩)
      · exact ⟨a, Or.inl ⟨le_refl _, b⟩⟩
      · exact ⟨a, Or.inr ⟨by omega, c⟩⟩
      · exact ⟨a, Or.inl ⟨by omega, c⟩⟩
      · exact ⟨a, Or.inr ⟨by omega, c⟩⟩
    · rintro ⟨a, ⟨b, c⟩ | ⟨b, c⟩⟩
      · rcases Nat.eq_or_lt_of_le b with b | b
        · exact Or.inl ⟨a, Or.inl ⟨b, c⟩⟩
        · exact Or.inr ⟨a, Or.inl ⟨by omega, c⟩⟩
      · rcases Nat.eq_or_lt_of_le b with b | b
        · exact Or.inl ⟨a, Or.inr ⟨b, c⟩⟩
        · exact Or.inr ⟨a, Or.inr ⟨by omega, c⟩⟩
  | case2 i j h =>
    constructor
    · intro h; simp at h
    · rintro ⟨hd, hh⟩
      exfalso
      -- there is no divisor e of m with i ≤ e and e*e ≤ m
      have main : ∀ e, e ∣ m → i ≤ e → e * e ≤ m → False := by
        intro e hde hie hee
        have h1 : i * i ≤ e * e := Nat.mul_le_mul hie hie
        by_cases him : i < mx
        · have hji : j ≤ i := by by_contra hc; exact h ⟨him, by omega⟩
          rcases hj with ⟨rfl, rfl⟩ | ⟨h3, rfl⟩
          · omega
          · have : m < (i + 1) * (i - 1) := by
              by_contra hc
              have := (Nat.le_div_iff_mul_le (k := i - 1) (x := i + 1) (y := m) (by omega)).mpr
                (by omega)
              omega
            obtain ⟨k, rfl⟩ : ∃ k, i = k + 1 := ⟨i - 1, by omega⟩
            simp at this
            have e1 : (k + 1 + 1) * k = k * k + 2 * k := by ring
            have e2 : (k + 1) * (k + 1) = k * k + 2 * k + 1 := by ring
            omega
        · have : mx * mx ≤ i * i := Nat.mul_le_mul (by omega) (by omega)
          omega
      rcases hh with ⟨a, b⟩ | ⟨a, b⟩
      · exact main d hd a b
      · refine main (m / d) (Nat.div_dvd_of_dvd hd) a ?_
        have e : d * (m / d) = m := Nat.mul_div_cancel' hd
        have : m / d ≤ d := by
          by_contra hc
          have : d * d ≤ d * (m / d) := Nat.mul_le_mul_left _ (by omega)
          omega
        calc m / d * (m / d) ≤ d * (m / d) := Nat.mul_le_mul_right _ this
          _ = m := e

/-- Whatever the threshold constant: when `find_divisors` answers, the list holds
exactly the positive divisors of `n`. -/
theorem C05_findDivisorsMax_exact (mx n : Nat) (hn : 0 < n) (l : List Nat)
    (h : findDivisorsMax mx n = some l) (d : Nat) : d ∈ l ↔ d ∣ n := by
  unfold findDivisorsMax at h
  split at h
  · rename_i hlt
    simp only [Option.some.injEq] at h
    subst h
    split
    · rename_i h1; subst h1; simp
    · rw [divisorsLoop_mem mx n 1 n (by omega) hlt (le_refl 1) (Or.inl ⟨rfl, rfl⟩)]
      constructor
      · exact fun h => h.1
      · intro hd
        refine ⟨hd, ?_⟩
        have h1 : 0 < d := Nat.pos_of_dvd_of_pos hd hn
        by_cases h2 : d * d ≤ n
        · exact Or.inl ⟨h1, h2⟩
        · exact Or.inr ⟨Nat.div_pos (Nat.le_of_dvd hn hd) h1, by omega⟩
  · simp at h

theorem C05_findDivisors_exact (n : Nat) (hn : 0 < n) (l : List Nat)
    (h : findDivisors n = some l) (d : Nat) : d ∈ l ↔ d ∣ n :=
  C05_findDivisorsMax_exact 11 n hn l h d

/-- It answers exactly for numbers below 121. -/
theorem C05_findDivisors_answers (n : Nat) : (findDivisors n).isSome = true ↔ n < 121 := by
  unfold findDivisors findDivisorsMax
  split <;> simp <;> omega

theorem divisorsLoop_nodup (mx m i j : Nat) (hm : 2 ≤ m) (hmx : m < mx * mx) (hi : 1 ≤ i)
    (hj : i = 1 ∧ j = m ∨ 2 ≤ i ∧ j = m / (i - 1)) : (divisorsLoop mx m i j).Nodup := by
  fun_induction divisorsLoop mx m i j with
  | case1 i j h j' ih =>
    have hj' : (i + 1 = 1 ∧ j' = m ∨ 2 ≤ i + 1 ∧ j' = m / (i + 1 - 1)) :=
      Or.inr ⟨by omega, by simp [j']⟩
    have ihh := ih (by omega) hj'
    rw [List.nodup_append]
    refine ⟨?_, ihh, ?_⟩
    · split
      · split
        · rename_i hlt; simp; omega
        · simp
      · simp
    · intro a ha b hb
      rw [divisorsLoop_mem mx m (i+1) j' hm hmx (by omega) hj'] at hb
      obtain ⟨hb1, hb2⟩ := hb
      rintro rfl
      by_cases hr : m % i = 0
      · have hdv : i ∣ m := Nat.dvd_of_mod_eq_zero hr
        have hij : i * j' = m := Nat.mul_div_cancel' hdv
        rw [if_pos hr] at ha
        have ha' : a = i ∨ (a = j' ∧ i < j') := by
          by_cases hlt : i < j'
          · rw [if_pos hlt] at ha; simp at ha; tauto
          · rw [if_neg hlt] at ha; simp at ha; tauto
        rcases ha' with rfl | ⟨rfl, hlt⟩
        · have e1 : m / a = j' := rfl
          rcases hb2 with hb2 | hb2
          · omega
          · rw [e1] at hb2
            have : a * j' < a * a := by omega
            have := Nat.lt_of_mul_lt_mul_left this
            omega
        · have e1 : m / j' = i := by
            rw [← hij]; exact Nat.mul_div_cancel _ (by omega)
          rcases hb2 with hb2 | hb2
          · have : j' * j' ≤ i * j' := by omega
            have := Nat.le_of_mul_le_mul_right this (by omega)
            omega
          · omega
      · rw [if_neg hr] at ha; simp at ha
  | case2 => simp

/-- No divisor is listed twice. -/
theorem C05_findDivisors_nodup (n : Nat) (hn : 0 < n) (l : List Nat)
    (h : findDivisors n = some l) : l.Nodup := by
  unfold findDivisors findDivisorsMax at h
  split at h
  · rename_i hlt
    simp only [Option.some.injEq] at h
    subst h
    split
    · simp
    · exact divisorsLoop_nodup 11 n 1 n (by omega) hlt (le_refl 1) (Or.inl ⟨rfl, rfl⟩)
  · simp at h

example : ∃ l, findDivisors 60 = some l := Option.isSome_iff_exists.mp ((C05_findDivisors_answers 60).mpr (by norm_num))

/-! ## C55 conversions -/

theorem coe_num_of_den {q : ℚ} (h : q.den = 1) : ((q.num : Int) : ℚ) = q := by
  conv_rhs => rw [← Rat.num_div_den q, h]
  simp

/-- `to_int` returns exactly the integer it was given or throws; it throws exactly
when the number is no integer or out of range. -/
theorem C55_toInt (q : ℚ) :
    (∀ k, toInt q = .ok k ↔ InInt k ∧ (k : ℚ) = q) ∧
    (toInt q = .throws ↔ ¬ ∃ k : Int, InInt k ∧ (k : ℚ) = q) := by
  unfold toInt
  split
  · rename_i h
    constructor
    · intro k
      simp only [reduceCtorEq, false_iff]
      rintro ⟨hk, rfl⟩
      simp [InInt] at *; omega
    · simp only [true_iff]; rintro ⟨k, hk, rfl⟩; simp [InInt] at *; omega
  · rename_i h
    push Not at h
    constructor
    · intro k
      constructor
      · intro hk
        cases hk
        exact ⟨by unfold InInt; omega, coe_num_of_den h.1⟩
      · rintro ⟨hk, rfl⟩; simp
    · simp only [reduceCtorEq, false_iff, not_not]
      exact ⟨q.num, by unfold InInt; omega, coe_num_of_den h.1⟩

/-- `to_long` likewise with the 64-bit range. -/
theorem C55_toLong (q : ℚ) (k : Int) :
    toLong q = .ok k ↔
      (-9223372036854775808 ≤ k ∧ k ≤ 9223372036854775807) ∧ (k : ℚ) = q := by
  unfold toLong
  split
  · rename_i h
    simp only [reduceCtorEq, false_iff]
    rintro ⟨hk, rfl⟩
    simp at *; omega
  · rename_i h
    push Not at h
    constructor
    · intro hk
      cases hk
      exact ⟨by omega, coe_num_of_den h.1⟩
    · rintro ⟨hk, rfl⟩; simp

/-- `to_unsigned_int` is right on `0..INT_MAX`.  Missing from the full claim ("the
same mathematical value or an exception"): negative integers wrap silently and
`INT_MAX+1..UINT_MAX` is refused, see the two refutations below. -/
theorem C110_toUnsignedInt_partial (q : ℚ) (hq : 0 ≤ q) (k : Int) :
    toUnsignedInt q = .ok k ↔ (0 ≤ k ∧ k ≤ 2147483647) ∧ (k : ℚ) = q := by
  have hn : 0 ≤ q.num := Rat.num_nonneg.mpr hq
  unfold toUnsignedInt
  split
  · rename_i h
    simp only [reduceCtorEq, false_iff]
    rintro ⟨hk, rfl⟩
    simp at *; omega
  · rename_i h
    push Not at h
    have e : q.num % 4294967296 = q.num := Int.emod_eq_of_lt hn (by omega)
    rw [e]
    constructor
    · intro hk
      cases hk
      exact ⟨by omega, coe_num_of_den h.1⟩
    · rintro ⟨hk, rfl⟩; simp

/-- Refutation: a negative integer is converted to a different number, silently. -/
theorem C110_negative_refuted (k : Int) (h1 : -2147483648 ≤ k) (h2 : k < 0) :
    toUnsignedInt k = .ok (k + 4294967296) := by
  unfold toUnsignedInt
  rw [if_neg (by simp; omega)]
  congr 1
  rw [Rat.num_intCast]
  omega

/-- Refutation: representable unsigned values above `INT_MAX` are refused. -/
theorem C110_large_refuted (k : Int) (h1 : 2147483647 < k) :
    toUnsignedInt k = .throws := by
  unfold toUnsignedInt
  rw [if_pos (by simp; omega)]

/-- `mod` throws exactly on a zero modulus; otherwise the result is congruent to the
first argument and lies strictly between zero and the modulus (sign of the modulus). -/
theorem C55_mod (x y : Int) :
    (numMod x y = .throws ↔ y = 0) ∧
    ∀ r, numMod x y = .ok r → y ∣ x - r ∧ r.natAbs < y.natAbs ∧ 0 ≤ r * y := by
  unfold numMod
  split
  · rename_i h; simp [h]
  · rename_i h
    refine ⟨by simp [h], ?_⟩
    intro r hr
    cases hr
    have e := Int.fmod_add_mul_fdiv x y
    have bounds : (0 < y ∧ 0 ≤ x.fmod y ∧ x.fmod y < y) ∨ (y < 0 ∧ x.fmod y ≤ 0 ∧ y < x.fmod y) := by
      rcases lt_or_gt_of_ne h with hy | hy
      · right
        have e2 : (-x).fmod (-y) = -x.fmod y := Int.neg_fmod_neg x y
        have a := Int.fmod_nonneg_of_pos (-x) (b := -y) (by omega)
        have b := Int.fmod_lt_of_pos (-x) (b := -y) (by omega)
        omega
      · exact Or.inl ⟨hy, Int.fmod_nonneg_of_pos x hy, Int.fmod_lt_of_pos x hy⟩
    refine ⟨⟨x.fdiv y, by linarith⟩, by omega, ?_⟩
    rcases bounds with ⟨a, b, c⟩ | ⟨a, b, c⟩
    · exact mul_nonneg b a.le
    · exact mul_nonneg_of_nonpos_of_nonpos b a.le

example : toInt 7 = .ok 7 := by rw [(C55_toInt 7).1]; exact ⟨by decide, by norm_num⟩
example : numMod (-7) 3 = .ok 2 := by decide

end Purrs
