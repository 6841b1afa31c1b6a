import Verif.Model.Factorize
import Verif.Model.ExprLemmas
import Verif.Props.IntUtil
import Verif.Props.VerifyIC
import Verif.Model.RealInterp

/-!
# C50: common factors

The specification: common factor times remainder has the value of the expression, for every assignment of the symbols.
-/

set_option linter.unusedSectionVars false

namespace Purrs.Factorize

open Purrs

variable {K : Type} [Field K] [CharZero K] (I : Interp K)

/-! ### Bases and exponents -/

/-- No factor is the number zero. -/
def NoZero (t : Expr) : Prop := t ≠ .num 0 ∧ ∀ l, t = .mul l → Expr.num 0 ∉ l

/-- The value of a list of powers. -/
def powVal (ρ : String → K) (l : List (Expr × Expr)) : K := (l.map fun p => I.pw (eval I ρ p.1) (eval I ρ p.2)).prod

theorem powVal_append (ρ : String → K) (l m : List (Expr × Expr)) : powVal I ρ (l ++ m) = powVal I ρ l * powVal I ρ m := by
  simp [powVal]

theorem pw_one' (a : K) : I.pw a 1 = a := by
  have := I.pw_int a 1; simpa using this

theorem splitInt_val (ρ : String → K) {z : ℤ} (hz : z ≠ 0) (acc : List (Expr × Expr)) :
    powVal I ρ (splitInt z acc) = powVal I ρ acc * (z : K) := by
  have h1 : powVal I ρ ((partialFactor z).map fun p => (Expr.num p.1, Expr.num p.2)) = (z.natAbs : K) := by
    have h := C04_partialFactor_value z hz
    rw [← h]
    unfold powVal factorizationValue
    rw [List.map_map, Nat.cast_list_prod, List.map_map]
    congr 1
    refine List.map_congr_left fun p _ => ?_
    simp only [Function.comp, eval, Rat.cast_natCast, Nat.cast_pow]
    exact pw_nat I _ _
  have h3 : powVal I ρ (if z = 1 then [(.num 1, .num 1)] else []) = 1 := by
    split
    · simp [powVal, eval, I.one_pw]
    · simp [powVal]
  unfold splitInt
  rw [powVal_append, powVal_append, powVal_append, h1, h3]
  split
  · rename_i hneg
    have h2 : powVal I ρ [(Expr.num (-1), Expr.num 1)] = -1 := by
      simp [powVal, eval, pw_one']
    rw [h2]
    have h4 : (z : K) = -(z.natAbs : K) := by
      have : z = -(z.natAbs : ℤ) := by omega
      rw [this]; simp
    rw [h4]; ring
  · rename_i hneg
    have h4 : (z : K) = (z.natAbs : K) := by
      have : z = (z.natAbs : ℤ) := by omega
      rw [this]; simp
    rw [h4]
    simp [powVal]
    ring

theorem splitFactor_val (ρ : String → K) {e : Expr} (he : e ≠ .num 0) (acc : List (Expr × Expr)) :
    powVal I ρ (splitFactor e acc) = powVal I ρ acc * eval I ρ e := by
  have hone : ∀ e : Expr, powVal I ρ (acc ++ [(e, .num 1)]) = powVal I ρ acc * eval I ρ e := by
    intro e
    rw [powVal_append]
    simp [powVal, eval, pw_one']
  unfold splitFactor
  split
  · rename_i q
    split
    · rename_i hd
      rw [splitInt_val I ρ]
      · simp only [eval]; rw [ratCast_of_den_one hd]
      · intro h
        apply he
        rw [Rat.num_eq_zero.mp h]
    · exact hone _
  · rw [powVal_append]
    simp [powVal, eval]
  · exact hone _

theorem splitBases_val (ρ : String → K) {t : Expr} (h : NoZero t) : powVal I ρ (splitBases t) = eval I ρ t := by
  have hone : ∀ t : Expr, t ≠ .num 0 → powVal I ρ (splitFactor t []) = eval I ρ t := by
    intro t ht
    rw [splitFactor_val I ρ ht]; simp [powVal]
  unfold splitBases
  split
  · rename_i l
    have hl := h.2 l rfl
    simp only [eval]
    induction l with
    | nil => simp [powVal]
    | cons a l ih =>
      rw [List.foldr_cons, splitFactor_val I ρ (fun ha => hl (by simp [ha])),
        ih ⟨by simp, fun m hm => by cases hm; exact fun h' => hl (List.mem_cons_of_mem _ h')⟩
          (fun h' => hl (List.mem_cons_of_mem _ h'))]
      simp [mul_comm]
  · exact hone _ h.1

/-! ### Exponents -/

/-- `a` is the exponent of a divisor. -/
def Le (a y : Expr) : Prop := y = a ∨ ∃ i j : ℕ, 0 < i ∧ i ≤ j ∧ a = .num i ∧ y = .num j

theorem Le.refl (a : Expr) : Le a a := .inl rfl

theorem Le.trans {a b c : Expr} (h1 : Le a b) (h2 : Le b c) : Le a c := by
  rcases h1 with rfl | ⟨i, j, hi, hij, rfl, rfl⟩
  · exact h2
  rcases h2 with rfl | ⟨k, l, hk, hkl, he, rfl⟩
  · exact .inr ⟨i, j, hi, hij, rfl, rfl⟩
  · have : j = k := by exact_mod_cast (Expr.num.inj he)
    exact .inr ⟨i, l, hi, by omega, rfl, rfl⟩

theorem Le.antisymm {a b : Expr} (h1 : Le a b) (h2 : Le b a) : a = b := by
  rcases h1 with rfl | ⟨i, j, hi, hij, rfl, rfl⟩
  · rfl
  rcases h2 with h | ⟨k, l, hk, hkl, he, he'⟩
  · exact h
  · have h1 : j = k := by exact_mod_cast (Expr.num.inj he)
    have h2 : i = l := by exact_mod_cast (Expr.num.inj he')
    rw [show i = j by omega]

theorem posInt_num {q : ℚ} : isPosInt (.num q) = true ↔ ∃ k : ℕ, 0 < k ∧ q = k := by
  rw [Verify.isPosInt_iff]
  constructor
  · rintro ⟨k, hk, h⟩; exact ⟨k, hk, Expr.num.inj h⟩
  · rintro ⟨k, hk, rfl⟩; exact ⟨k, hk, rfl⟩

theorem meet_spec {m y r : Expr} (h : meet m y = some r) : Le r m ∧ Le r y ∧ (r = m ∨ r = y) := by
  unfold meet at h
  split at h
  · rename_i a c
    by_cases hp : (isPosInt (.num a) && isPosInt (.num c)) = true
    · rw [if_pos hp] at h
      obtain rfl := Option.some.inj h
      simp only [Bool.and_eq_true] at hp
      obtain ⟨i, hi, rfl⟩ := posInt_num.mp hp.1
      obtain ⟨j, hj, rfl⟩ := posInt_num.mp hp.2
      split
      · rename_i hlt
        have : i < j := by exact_mod_cast hlt
        exact ⟨.refl _, .inr ⟨i, j, hi, by omega, rfl, rfl⟩, .inl rfl⟩
      · rename_i hlt
        have : j ≤ i := by
          have := not_lt.mp hlt
          exact_mod_cast this
        exact ⟨.inr ⟨j, i, hj, this, rfl, rfl⟩, .refl _, .inr rfl⟩
    · rw [if_neg hp] at h
      split_ifs at h with hac
      obtain rfl := Option.some.inj h
      subst hac
      exact ⟨.refl _, .refl _, .inl rfl⟩
  · split_ifs at h with hac
    obtain rfl := Option.some.inj h
    subst hac
    exact ⟨.refl _, .refl _, .inl rfl⟩

theorem meet_same (m : Expr) : ∃ r, meet m m = some r := by
  cases m with
  | num q =>
    unfold meet
    dsimp only
    split
    · exact ⟨_, rfl⟩
    · exact ⟨_, if_pos rfl⟩
  | _ => exact ⟨_, by simp [meet]; rfl⟩

theorem meet_of_le {c m y : Expr} (h1 : Le c m) (h2 : Le c y) : ∃ r, meet m y = some r ∧ Le c r := by
  have key : ∀ {r}, meet m y = some r → Le c r := by
    intro r hr
    rcases (meet_spec hr).2.2 with rfl | rfl
    · exact h1
    · exact h2
  have : ∃ r, meet m y = some r := by
    rcases h1 with rfl | ⟨i, j, hi, hij, rfl, rfl⟩
    · rcases h2 with rfl | ⟨i, j, hi, hij, rfl, rfl⟩
      · exact meet_same _
      · unfold meet
        have a1 : isPosInt (.num (i : ℚ)) = true := posInt_num.mpr ⟨i, hi, rfl⟩
        have a2 : isPosInt (.num (j : ℚ)) = true := posInt_num.mpr ⟨j, by omega, rfl⟩
        simp [a1, a2]
    · have a2 : isPosInt (.num (j : ℚ)) = true := posInt_num.mpr ⟨j, by omega, rfl⟩
      have : ∃ l : ℕ, 0 < l ∧ y = .num l := by
        rcases h2 with rfl | ⟨k, l, hk, hkl, he, rfl⟩
        · exact ⟨i, hi, rfl⟩
        · exact ⟨l, by omega, rfl⟩
      obtain ⟨l, hl, rfl⟩ := this
      have a1 : isPosInt (.num (l : ℚ)) = true := posInt_num.mpr ⟨l, hl, rfl⟩
      unfold meet
      simp [a1, a2]
  obtain ⟨r, hr⟩ := this
  exact ⟨r, hr, key hr⟩

theorem findExp_spec {b m r : Expr} {l : List (Expr × Expr)} (h : findExp b m l = some r) : ∃ y, (b, y) ∈ l ∧ meet m y = some r := by
  unfold findExp at h
  obtain ⟨p, hp, hr⟩ := List.exists_of_findSome?_eq_some h
  split_ifs at hr with hb
  exact ⟨p.2, by rw [← hb]; exact List.mem_reverse.mp hp, hr⟩

theorem findExp_of {b m y : Expr} {l : List (Expr × Expr)} (hy : (b, y) ∈ l) {r : Expr} (h : meet m y = some r) : ∃ r', findExp b m l = some r' := by
  unfold findExp
  cases hf : l.reverse.findSome? fun p => if p.1 = b then meet m p.2 else none with
  | some r' => exact ⟨r', rfl⟩
  | none =>
    rw [List.findSome?_eq_none_iff] at hf
    have := hf (b, y) (List.mem_reverse.mpr hy)
    simp [h] at this

/-! ### The common exponent of a base -/

/-- The factors of a summand have different bases (apart from `1`). -/
def Distinct (t : Expr) : Prop := (((splitBases t).filter fun p => p.1 ≠ .num 1).map Prod.fst).Nodup

theorem Distinct.unique {t b y y' : Expr} (h : Distinct t) (hb : b ≠ .num 1) (h1 : (b, y) ∈ splitBases t) (h2 : (b, y') ∈ splitBases t) :
    y = y' := by
  have a1 : (b, y) ∈ (splitBases t).filter fun p => p.1 ≠ .num 1 := List.mem_filter.mpr ⟨h1, by simpa using hb⟩
  have a2 : (b, y') ∈ (splitBases t).filter fun p => p.1 ≠ .num 1 := List.mem_filter.mpr ⟨h2, by simpa using hb⟩
  have := List.inj_on_of_nodup_map h a1 a2 rfl
  exact (Prod.ext_iff.mp this).2

/-- `b` is common to all terms with the exponent `m`. -/
def CommonExp (terms : List Expr) (b m : Expr) : Prop :=
  (∀ t ∈ terms, ∃ y, (b, y) ∈ splitBases t ∧ Le m y) ∧ ∃ t ∈ terms, (b, m) ∈ splitBases t

theorem CommonExp.unique {terms : List Expr} (hd : ∀ t ∈ terms, Distinct t) {b m m' : Expr} (hb : b ≠ .num 1)
    (h : CommonExp terms b m) (h' : CommonExp terms b m') : m = m' := by
  obtain ⟨t, ht, hm⟩ := h.2
  obtain ⟨t', ht', hm'⟩ := h'.2
  obtain ⟨y, hy, hle⟩ := h'.1 t ht
  obtain ⟨y', hy', hle'⟩ := h.1 t' ht'
  rw [(hd t ht).unique hb hy hm] at hle
  rw [(hd t' ht').unique hb hy' hm'] at hle'
  exact Le.antisymm hle' hle

theorem inAll_spec {terms : List Expr} {b x r : Expr} (h : inAll terms b x = some r) :
    Le r x ∧ (∀ t ∈ terms, ∃ y, (b, y) ∈ splitBases t ∧ Le r y) ∧ (r = x ∨ ∃ t ∈ terms, (b, r) ∈ splitBases t) := by
  induction terms generalizing r with
  | nil =>
    obtain rfl := Option.some.inj h
    exact ⟨.refl _, by simp, .inl rfl⟩
  | cons t l ih =>
    unfold inAll at h
    rw [List.foldr_cons, Option.bind_eq_some_iff] at h
    obtain ⟨m, hm, hr⟩ := h
    obtain ⟨h1, h2, h3⟩ := ih hm
    obtain ⟨y, hy, hmy⟩ := findExp_spec hr
    obtain ⟨k1, k2, k3⟩ := meet_spec hmy
    refine ⟨k1.trans h1, ?_, ?_⟩
    · intro t' ht'
      rcases List.mem_cons.mp ht' with rfl | ht'
      · exact ⟨y, hy, k2⟩
      · obtain ⟨y', hy', hle⟩ := h2 t' ht'
        exact ⟨y', hy', k1.trans hle⟩
    · rcases k3 with rfl | rfl
      · rcases h3 with h3 | ⟨t', ht', h3⟩
        · exact .inl h3
        · exact .inr ⟨t', List.mem_cons_of_mem _ ht', h3⟩
      · exact .inr ⟨t, by simp, hy⟩

theorem inAll_of {terms : List Expr} (hd : ∀ t ∈ terms, Distinct t) {b x c : Expr} (hb : b ≠ .num 1) (hx : Le c x)
    (h : ∀ t ∈ terms, ∃ y, (b, y) ∈ splitBases t ∧ Le c y) : ∃ r, inAll terms b x = some r ∧ Le c r := by
  induction terms with
  | nil => exact ⟨x, rfl, hx⟩
  | cons t l ih =>
    obtain ⟨m, hm, hle⟩ := ih (fun t ht => hd t (List.mem_cons_of_mem _ ht)) (fun t ht => h t (List.mem_cons_of_mem _ ht))
    obtain ⟨y, hy, hcy⟩ := h t (by simp)
    obtain ⟨r, hr, -⟩ := meet_of_le hle hcy
    obtain ⟨r', hr'⟩ := findExp_of hy hr
    obtain ⟨y', hy', hmy'⟩ := findExp_spec hr'
    rw [(hd t (by simp)).unique hb hy' hy, hr] at hmy'
    obtain rfl := Option.some.inj hmy'
    refine ⟨r, ?_, ?_⟩
    · unfold inAll at hm ⊢
      rw [List.foldr_cons, hm]
      exact hr'
    · obtain ⟨r2, hr2, h2⟩ := meet_of_le hle hcy
      rw [hr] at hr2
      obtain rfl := Option.some.inj hr2
      exact h2

theorem inAll_iff {terms : List Expr} (hd : ∀ t ∈ terms, Distinct t) {t b x : Expr} (ht : t ∈ terms) (hx : (b, x) ∈ splitBases t)
    (hb : b ≠ .num 1) (m : Expr) : inAll terms b x = some m ↔ CommonExp terms b m := by
  have fwd : ∀ {m}, inAll terms b x = some m → CommonExp terms b m := by
    intro m h
    obtain ⟨h1, h2, h3⟩ := inAll_spec h
    refine ⟨h2, ?_⟩
    rcases h3 with rfl | h3
    · exact ⟨t, ht, hx⟩
    · exact h3
  refine ⟨fwd, fun h => ?_⟩
  obtain ⟨y, hy, hle⟩ := h.1 t ht
  rw [(hd t ht).unique hb hy hx] at hle
  obtain ⟨r, hr, -⟩ := inAll_of hd hb hle h.1
  rw [hr, CommonExp.unique hd hb (fwd hr) h]

/-! ### Collecting the common factor -/

section
variable {terms : List Expr} (hd : ∀ t ∈ terms, Distinct t) (ρ : String → K)

/-- The common factor so far: every base is common to all terms, and occurs once. -/
def Inv (terms : List Expr) (C : List (Expr × Expr)) : Prop :=
  (∀ p ∈ C, p.1 ≠ .num 1 → CommonExp terms p.1 p.2) ∧ ((C.filter fun p => p.1 ≠ .num 1).map Prod.fst).Nodup

open Classical in
/-- The part of a factor that goes into the common factor. -/
noncomputable def partOf (terms : List Expr) (p : Expr × Expr) : Option (Expr × Expr) :=
  if h : p.1 ≠ .num 1 ∧ ∃ m, CommonExp terms p.1 m then some (p.1, h.2.choose) else none

include hd in
theorem partOf_some {p : Expr × Expr} {m : Expr} (hb : p.1 ≠ .num 1) (h : CommonExp terms p.1 m) : partOf terms p = some (p.1, m) := by
  have hex : p.1 ≠ .num 1 ∧ ∃ m, CommonExp terms p.1 m := ⟨hb, m, h⟩
  unfold partOf
  rw [dif_pos hex, CommonExp.unique hd hb hex.2.choose_spec h]

theorem partOf_none {p : Expr × Expr} (h : ∀ m, ¬ CommonExp terms p.1 m) : partOf terms p = none := by
  unfold partOf
  rw [dif_neg]
  rintro ⟨-, m, hm⟩
  exact h m hm

theorem partOf_unit {p : Expr × Expr} (h : p.1 = .num 1) : partOf terms p = none := by
  unfold partOf
  rw [dif_neg]
  exact fun h' => h'.1 h

/-- The value of the part of a factor that goes into the common factor. -/
noncomputable def partVal (terms : List Expr) (p : Expr × Expr) : K := powVal I ρ (partOf terms p).toList

theorem one_powE (x : Expr) : eval I ρ (powE (.num 1) x) = 1 := by
  rw [eval_powE]
  simp [eval, I.one_pw]

theorem pow_sub (b : Expr) {i j : ℕ} (h : i ≤ j) :
    I.pw (eval I ρ b) (eval I ρ (.num i)) * eval I ρ (powE b (.num ((j : ℚ) - i))) = I.pw (eval I ρ b) (eval I ρ (.num j)) := by
  rw [eval_powE]
  simp only [eval]
  rw [show (((j : ℚ) - (i : ℚ) : ℚ) : K) = ((j - i : ℕ) : K) by
    rw [Nat.cast_sub h]; push_cast; rfl]
  simp only [Rat.cast_natCast]
  rw [pw_nat, pw_nat, pw_nat, ← pow_add, Nat.add_sub_cancel' h]

/-- What is left over is the rest of the factor. -/
theorem leftOver_val (b : Expr) {x m : Expr} (h : Le m x) :
    I.pw (eval I ρ b) (eval I ρ m) * eval I ρ (leftOver b x m) = I.pw (eval I ρ b) (eval I ρ x) := by
  rcases h with rfl | ⟨i, j, hi, hij, rfl, rfl⟩
  · have h1 : eval I ρ (leftOver b x x) = 1 := by
      cases x with
      | num q =>
        unfold leftOver
        dsimp only
        split
        · rw [if_neg (lt_irrefl _), sub_self, eval_powE]
          have := I.pw_int (eval I ρ b) 0
          simpa [eval] using this
        · rw [if_pos rfl]; simp [eval]
      | _ => simp [leftOver, eval]
    rw [h1, mul_one]
  · have a1 : isPosInt (.num (i : ℚ)) = true := posInt_num.mpr ⟨i, hi, rfl⟩
    have a2 : isPosInt (.num (j : ℚ)) = true := posInt_num.mpr ⟨j, by omega, rfl⟩
    unfold leftOver
    dsimp only
    rw [a1, a2, if_pos (by rfl)]
    split
    · exact pow_sub I ρ b hij
    · rename_i hlt
      have : i = j := by
        have := not_lt.mp hlt
        have : j ≤ i := by exact_mod_cast this
        omega
      subst this
      exact pow_sub I ρ b le_rfl

theorem rest_val (b : Expr) {x m : Expr} (h : Le m x) :
    I.pw (eval I ρ b) (eval I ρ m) * (if m = x then (1 : K) else eval I ρ (powE b (subE x m))) = I.pw (eval I ρ b) (eval I ρ x) := by
  rcases h with rfl | ⟨i, j, hi, hij, rfl, rfl⟩
  · simp
  · split
    · rename_i h
      rw [h]; simp
    · have : subE (.num (j : ℚ)) (.num (i : ℚ)) = .num ((j : ℚ) - i) := by
        simp only [subE, negE, mulE, addE]
        congr 1
        ring
      rw [this]
      exact pow_sub I ρ b hij

include hd in
/-- One factor of a summand. -/
theorem step_spec {t : Expr} (ht : t ∈ terms) {p : Expr × Expr} (hp : p ∈ splitBases t) {C : List (Expr × Expr)} (hC : Inv terms C) (rem : Expr) :
    Inv terms (inAllFactors terms p (C, rem)).1 ∧ (∀ q ∈ C, q ∈ (inAllFactors terms p (C, rem)).1) ∧
    (∀ m, p.1 ≠ .num 1 → CommonExp terms p.1 m → (p.1, m) ∈ (inAllFactors terms p (C, rem)).1) ∧
    ∃ v : K, eval I ρ (inAllFactors terms p (C, rem)).2 = eval I ρ rem * v ∧
      partVal I ρ terms p * v = I.pw (eval I ρ p.1) (eval I ρ p.2) := by
  obtain ⟨b, x⟩ := p
  have hx : ∀ m, inAll terms b x = some m → Le m x := fun m h => (inAll_spec h).1
  by_cases hb : b = .num 1
  · -- the unit
    have hpv : partVal I ρ terms (b, x) = 1 := by
      unfold partVal; rw [partOf_unit hb]; simp [powVal]
    have hpw : ∀ y, I.pw (eval I ρ b) y = 1 := by intro y; rw [hb]; simp [eval, I.one_pw]
    have hfil : ∀ m, Inv terms (C ++ [(b, m)]) := by
      intro m
      refine ⟨fun p hp hne => ?_, ?_⟩
      · rcases List.mem_append.mp hp with hp | hp
        · exact hC.1 p hp hne
        · rw [List.mem_singleton.mp hp] at hne
          exact absurd hb hne
      · rw [List.filter_append, show (([(b, m)] : List (Expr × Expr)).filter fun p => p.1 ≠ .num 1) = [] by simp [hb], List.append_nil]
        exact hC.2
    have hlo : ∀ y, eval I ρ (leftOver b x y) = 1 := by
      intro y
      unfold leftOver
      rw [hb]
      split
      · split
        · split <;> exact one_powE I ρ _
        · split
          · simp [eval]
          · exact one_powE I ρ _
      · split
        · simp [eval]
        · exact one_powE I ρ _
    unfold inAllFactors
    cases hin : inAll terms b x with
    | none =>
      exact ⟨hC, fun q hq => hq, fun m hne => absurd hb hne, eval I ρ (powE b x), by rw [eval_mulE], by rw [hpv, eval_powE]; simp [hpw]⟩
    | some m =>
      dsimp only
      unfold assign
      dsimp only
      cases hf : C.reverse.find? fun p => p.1 = b with
      | some p' =>
        exact ⟨hC, fun q hq => hq, fun m hne => absurd hb hne, 1, by rw [eval_mulE, hlo], by rw [hpv, hpw]; simp⟩
      | none =>
        refine ⟨hfil m, fun q hq => by simp [hq], fun m hne => absurd hb hne, 1, ?_, by rw [hpv, hpw]; simp⟩
        dsimp only
        split
        · simp
        · rw [eval_mulE, hb, one_powE]
  · unfold inAllFactors
    cases hin : inAll terms b x with
    | none =>
      have hno : ∀ m, ¬ CommonExp terms b m := fun m hm => by
        rw [(inAll_iff hd ht hp hb m).mpr hm] at hin
        cases hin
      refine ⟨hC, fun q hq => hq, fun m _ hm => absurd hm (hno m), _, by rw [eval_mulE], ?_⟩
      unfold partVal
      rw [partOf_none (p := (b, x)) hno, eval_powE]
      simp [powVal]
    | some m =>
      have hcm := (inAll_iff hd ht hp hb m).mp hin
      have hpv : partVal I ρ terms (b, x) = I.pw (eval I ρ b) (eval I ρ m) := by
        unfold partVal
        rw [partOf_some hd (p := (b, x)) hb hcm]
        simp [powVal]
      dsimp only
      unfold assign
      dsimp only
      cases hf : C.reverse.find? fun p => p.1 = b with
      | some p' =>
        have hmem : p' ∈ C := List.mem_reverse.mp (List.mem_of_find?_eq_some hf)
        have hb' : p'.1 = b := by simpa using List.find?_some hf
        have hm' : p'.2 = m := by
          have := hC.1 p' hmem (by rw [hb']; exact hb)
          rw [hb'] at this
          exact CommonExp.unique hd hb this hcm
        refine ⟨hC, fun q hq => hq, fun m'' _ hm'' => ?_, eval I ρ (leftOver b x p'.2), by rw [eval_mulE], ?_⟩
        · rw [CommonExp.unique hd hb hm'' hcm, ← hm']
          dsimp only
          rw [← hb']
          exact hmem
        · rw [hpv, hm']
          exact leftOver_val I ρ b (hx m hin)
      | none =>
        have hnot : ∀ q ∈ C, q.1 ≠ b := by
          intro q hq
          have := List.find?_eq_none.mp hf q (List.mem_reverse.mpr hq)
          simpa using this
        refine ⟨⟨fun q hq hne => ?_, ?_⟩, fun q hq => by simp [hq], fun m'' _ hm'' => ?_, if m = x then 1 else eval I ρ (powE b (subE x m)), ?_, ?_⟩
        · rcases List.mem_append.mp hq with hq | hq
          · exact hC.1 q hq hne
          · rw [List.mem_singleton.mp hq]; exact hcm
        · rw [List.filter_append, show (([(b, m)] : List (Expr × Expr)).filter fun p => p.1 ≠ .num 1) = [(b, m)] by simp [hb],
            List.map_append, List.nodup_append]
          refine ⟨hC.2, by simp, ?_⟩
          rintro a ha c hc rfl
          obtain ⟨q, hq, rfl⟩ := List.mem_map.mp ha
          exact hnot q (List.mem_filter.mp hq).1 (by simpa using hc)
        · rw [CommonExp.unique hd hb hm'' hcm]; simp
        · dsimp only
          split
          · simp
          · rw [eval_mulE]
        · rw [hpv]
          exact rest_val I ρ b (hx m hin)

include hd in
/-- One summand. -/
theorem collect_spec {t : Expr} (ht : t ∈ terms) {C : List (Expr × Expr)} (hC : Inv terms C) :
    Inv terms (collect terms t C).1 ∧ (∀ q ∈ C, q ∈ (collect terms t C).1) ∧
    (∀ p ∈ splitBases t, ∀ m, p.1 ≠ .num 1 → CommonExp terms p.1 m → (p.1, m) ∈ (collect terms t C).1) ∧
    ((splitBases t).map fun p => partVal I ρ terms p).prod * eval I ρ (collect terms t C).2 = powVal I ρ (splitBases t) := by
  unfold collect
  have key : ∀ l : List (Expr × Expr), (∀ p ∈ l, p ∈ splitBases t) →
      Inv terms (l.foldr (fun p st => inAllFactors terms p st) (C, .num 1)).1 ∧
      (∀ q ∈ C, q ∈ (l.foldr (fun p st => inAllFactors terms p st) (C, .num 1)).1) ∧
      (∀ p ∈ l, ∀ m, p.1 ≠ .num 1 → CommonExp terms p.1 m → (p.1, m) ∈ (l.foldr (fun p st => inAllFactors terms p st) (C, .num 1)).1) ∧
      (l.map fun p => partVal I ρ terms p).prod * eval I ρ (l.foldr (fun p st => inAllFactors terms p st) (C, .num 1)).2 = powVal I ρ l := by
    intro l hl
    induction l with
    | nil => exact ⟨hC, fun q hq => hq, by simp, by simp [powVal, eval]⟩
    | cons p l ih =>
      obtain ⟨h1, h2, h3, h4⟩ := ih fun q hq => hl q (List.mem_cons_of_mem _ hq)
      rw [List.foldr_cons]
      set st := l.foldr (fun p st => inAllFactors terms p st) (C, .num 1) with hst
      obtain ⟨k1, k2, k3, v, k4, k5⟩ := step_spec I hd ρ ht (hl p (by simp)) h1 st.2
      refine ⟨k1, fun q hq => k2 q (h2 q hq), fun q hq m hne hm => ?_, ?_⟩
      · rcases List.mem_cons.mp hq with rfl | hq
        · exact k3 m hne hm
        · exact k2 _ (h3 q hq m hne hm)
      · rw [k4]
        simp only [List.map_cons, List.prod_cons, powVal]
        unfold powVal at h4
        rw [← h4, ← k5]
        ring
  exact key _ fun p hp => hp

include hd in
/-- The common part of every summand is the common factor. -/
theorem common_val {C : List (Expr × Expr)} (hC : Inv terms C) {t : Expr} (ht : t ∈ terms)
    (hall : ∀ p ∈ splitBases t, ∀ m, p.1 ≠ .num 1 → CommonExp terms p.1 m → (p.1, m) ∈ C) :
    ((splitBases t).map fun p => partVal I ρ terms p).prod = powVal I ρ C := by
  have h1 : ∀ l : List (Expr × Expr), (l.map fun p => partVal I ρ terms p).prod = powVal I ρ (l.filterMap fun p => partOf terms p) := by
    intro l
    induction l with
    | nil => simp [powVal]
    | cons p l ih =>
      rw [List.map_cons, List.prod_cons, ih, List.filterMap_cons]
      unfold partVal
      cases partOf terms p <;> simp [powVal]
  have h2 : ∀ l : List (Expr × Expr), powVal I ρ l = powVal I ρ (l.filter fun p => p.1 ≠ .num 1) := by
    intro l
    induction l with
    | nil => rfl
    | cons p l ih =>
      rw [List.filter_cons]
      by_cases hp : p.1 = .num 1
      · simp only [powVal, List.map_cons, List.prod_cons] at ih ⊢
        rw [ih, hp]
        simp [eval, I.one_pw]
      · simp only [powVal, List.map_cons, List.prod_cons] at ih ⊢
        rw [ih]
        simp [hp]
  rw [h1, h2 C]
  have hfst : ∀ l : List (Expr × Expr), ((l.filterMap fun p => partOf terms p).map Prod.fst).Sublist
      ((l.filter fun p => p.1 ≠ .num 1).map Prod.fst) := by
    intro l
    induction l with
    | nil => simp
    | cons p l ih =>
      rw [List.filterMap_cons, List.filter_cons]
      by_cases hp : p.1 = .num 1
      · rw [partOf_unit hp]; simpa [hp] using ih
      · rw [if_pos (by simpa using hp)]
        cases hq : partOf terms p with
        | none => exact ih.trans (by simp)
        | some q =>
          have : q.1 = p.1 := by
            unfold partOf at hq
            split_ifs at hq
            rw [← Option.some.inj hq]
          simp only [List.map_cons, this]
          exact ih.cons_cons _
  have hn1 : (((splitBases t).filterMap fun p => partOf terms p).map Prod.fst).Nodup := (hfst _).nodup (hd t ht)
  have hperm : ((splitBases t).filterMap fun p => partOf terms p).Perm (C.filter fun p => p.1 ≠ .num 1) := by
    rw [List.perm_ext_iff_of_nodup hn1.of_map hC.2.of_map]
    intro q
    rw [List.mem_filterMap, List.mem_filter]
    constructor
    · rintro ⟨p, hp, hq⟩
      unfold partOf at hq
      split_ifs at hq with h
      obtain rfl := Option.some.inj hq
      exact ⟨hall p hp _ h.1 h.2.choose_spec, by simpa using h.1⟩
    · rintro ⟨hq, hne⟩
      have hne' : q.1 ≠ .num 1 := by simpa using hne
      have hcm := hC.1 q hq hne'
      obtain ⟨y, hy, -⟩ := hcm.1 t ht
      exact ⟨(q.1, y), hy, partOf_some hd (p := (q.1, y)) hne' hcm⟩
  unfold powVal
  exact (hperm.map _).prod_eq

theorem prodOf_val (l : List (Expr × Expr)) : eval I ρ (prodOf l) = powVal I ρ l := by
  unfold prodOf powVal
  rw [eval_foldl_mulE]
  simp [eval, eval_powE]

/-- **C50**, sums: common factor times remainder is the sum, if no summand has two factors with the same base. -/
theorem C50_sum_partial {l : List Expr} (hd : ∀ t ∈ l, Distinct t) (hz : ∀ t ∈ l, NoZero t) :
    eval I ρ (prodOf (factorSum l).1) * eval I ρ (factorSum l).2 = eval I ρ (.add l) := by
  rw [prodOf_val]
  have key : ∀ m : List Expr, (∀ t ∈ m, t ∈ l) → ∀ st, st = m.foldr (fun t st => ((collect l t st.1).1, addE st.2 (collect l t st.1).2)) ([], .num 0) →
      Inv l st.1 ∧ (∀ t ∈ m, ∀ p ∈ splitBases t, ∀ x, p.1 ≠ .num 1 → CommonExp l p.1 x → (p.1, x) ∈ st.1) ∧
      ∀ Q : K, (∀ t ∈ m, ((splitBases t).map fun p => partVal I ρ l p).prod = Q) → Q * eval I ρ st.2 = (m.map fun t => eval I ρ t).sum := by
    intro m hm
    induction m with
    | nil => rintro st rfl; exact ⟨⟨by simp, by simp⟩, by simp, by simp [eval]⟩
    | cons t m ih =>
      rintro st rfl
      obtain ⟨h1, h2, h3⟩ := ih (fun t ht => hm t (List.mem_cons_of_mem _ ht)) _ rfl
      rw [List.foldr_cons]
      set st := m.foldr (fun t st => ((collect l t st.1).1, addE st.2 (collect l t st.1).2)) ([], .num 0) with hst
      obtain ⟨k1, k2, k3, k4⟩ := collect_spec I hd ρ (hm t (by simp)) h1
      refine ⟨k1, fun t' ht' p hp x hne hx => ?_, fun Q hQ => ?_⟩
      · rcases List.mem_cons.mp ht' with rfl | ht'
        · exact k3 p hp x hne hx
        · exact k2 _ (h2 t' ht' p hp x hne hx)
      · dsimp only
        rw [eval_addE, mul_add, h3 Q fun t ht => hQ t (List.mem_cons_of_mem _ ht), List.map_cons, List.sum_cons, add_comm,
          ← splitBases_val I ρ (hz t (hm t (by simp))), ← k4, hQ t (by simp)]
  obtain ⟨h1, h2, h3⟩ := key l (fun t ht => ht) (factorSum l) rfl
  simp only [eval]
  exact h3 _ fun t ht => common_val I hd ρ h1 ht (h2 t ht)

end

/-! ### The recursion -/

variable (O : Ops)

/-- The operations of GiNaC preserve values. -/
structure OpsOk : Prop where
  expand : ∀ e (ρ : String → K), eval I ρ (O.expand e) = eval I ρ e
  sqrfree : ∀ e (ρ : String → K), eval I ρ (O.sqrfree e) = eval I ρ e

/-- No summand of a sum that is met has two factors with the same base, nor the factor zero. -/
def FineCase (Fine : Expr → Prop) : Expr → Prop
  | .add l => ∀ t ∈ l, Distinct t ∧ NoZero t
  | .pow b (.num _) => Fine b
  | .mul l => ∀ a ∈ l, Fine a
  | _ => True

/-- The same at all levels of the recursion. -/
def Fine : ℕ → Expr → Prop
  | 0, _ => True
  | fuel + 1, e => FineCase (Fine fuel) (prepared O e)

theorem prepared_val (hO : OpsOk I O) (e : Expr) (ρ : String → K) : eval I ρ (prepared O e) = eval I ρ e := by
  unfold prepared
  split
  · rw [hO.sqrfree, hO.expand]
  · rw [hO.expand]

/-- **C50**, expressions without denominators: common factor times remainder is the expression. -/
theorem C50_no_ratio_partial (hO : OpsOk I O) (fuel : ℕ) {e : Expr} {r : Expr × Expr} (hf : Fine O fuel e) (h : noRatio O fuel e = some r)
    (ρ : String → K) : eval I ρ r.1 * eval I ρ r.2 = eval I ρ e := by
  induction fuel generalizing e r with
  | zero => simp [noRatio] at h
  | succ fuel ih =>
    rw [noRatio] at h
    have hf' : FineCase (Fine O fuel) (prepared O e) := hf
    have hv := prepared_val I O hO e ρ
    rw [← hv]
    unfold noRatioStep at h
    generalize prepared O e = e' at h hf' hv
    split at h
    · rename_i l
      obtain rfl := Option.some.inj h
      exact C50_sum_partial I ρ (fun t ht => (hf' t ht).1) (fun t ht => (hf' t ht).2)
    · rename_i l k
      by_cases hk : isPosInt (.num k) = true
      · rw [if_pos hk] at h
        obtain ⟨r', hr', rfl⟩ := Option.map_eq_some_iff.mp h
        have hval := ih hf' hr'
        obtain ⟨j, hj, rfl⟩ := posInt_num.mp hk
        split
        · rename_i h1
          rw [hval, eval, h1]
          simp [eval, pw_one']
        · dsimp only
          have he : eval I ρ (.pow (.add l) (.num (j : ℚ))) = eval I ρ (.add l) ^ j := by
            rw [eval]
            simp only [eval, Rat.cast_natCast, pw_nat]
          rw [eval_powE, eval_powE, he, ← hval]
          simp only [eval, Rat.cast_natCast, pw_nat, mul_pow]
      · rw [if_neg hk] at h
        obtain rfl := Option.some.inj h
        simp [eval]
    · obtain rfl := Option.some.inj h
      simp [eval]
    · rename_i l
      have hl : ∀ a ∈ l, Fine O fuel a := hf'
      clear hf' hv hf
      simp only [eval]
      induction l generalizing r with
      | nil => obtain rfl := Option.some.inj h; simp [eval]
      | cons a l ihl =>
        rw [List.foldr_cons, Option.bind_eq_some_iff] at h
        obtain ⟨r', hr', h⟩ := h
        obtain ⟨s, hs, rfl⟩ := Option.map_eq_some_iff.mp h
        have h1 := ihl hr' fun a ha => hl a (List.mem_cons_of_mem _ ha)
        have h2 := ih (hl a (by simp)) hs
        simp only [List.map_cons, List.prod_cons, eval_mulE]
        rw [← h1, ← h2]
        ring
    · obtain rfl := Option.some.inj h
      simp [eval, hv]

theorem eval_quo (ρ : String → K) (a b : Expr) : eval I ρ (quo a b) = eval I ρ a / eval I ρ b := by
  unfold quo
  rw [eval_mulE, eval_powE]
  simp only [eval]
  rw [show (((-1 : ℚ)) : K) = ((-1 : ℤ) : K) by push_cast; rfl, I.pw_int, zpow_neg_one, div_eq_mul_inv]

/-- **C50**: common factor times remainder is the expression, if numerator and denominator are those of the expression and
no summand has two factors with the same base. -/
theorem C50_factorize_partial (hO : OpsOk I O) (fuel : ℕ) {e : Expr} {r : Expr × Expr} (ρ : String → K)
    (hnd : eval I ρ (O.numer e) / eval I ρ (O.denom e) = eval I ρ e)
    (hn : Fine O fuel (O.numer e)) (hd : Fine O fuel (O.denom e)) (h : factorize O fuel e = some r) :
    eval I ρ r.1 * eval I ρ r.2 = eval I ρ e := by
  unfold factorize at h
  obtain ⟨n, h1, h⟩ := Option.bind_eq_some_iff.mp h
  obtain ⟨d, h2, rfl⟩ := Option.map_eq_some_iff.mp h
  have k1 := C50_no_ratio_partial I O hO fuel hn h1 ρ
  have k2 := C50_no_ratio_partial I O hO fuel hd h2 ρ
  rw [← hnd, ← k1, ← k2]
  split
  · rw [eval_quo, eval_mulE]
    exact div_mul_eq_mul_div _ _ _
  · rw [eval_quo, eval_quo, div_mul_div_comm]

theorem factorize_num {fuel : ℕ} {e : Expr} {n : Expr × Expr} {a b : ℚ} (h1 : noRatio O fuel (O.numer e) = some n)
    (h2 : noRatio O fuel (O.denom e) = some (.num a, .num b)) : factorize O fuel e = some (quo n.1 (mulE (.num a) (.num b)), n.2) := by
  unfold factorize
  rw [h1, h2]
  rfl

/-! ### Concrete cases -/

/-- Operations for expressions that are already expanded. -/
def exOps : Ops := ⟨fun e => e, fun _ => false, fun e => e, fun e => e, fun _ => .num 1⟩

theorem exOps_ok : OpsOk I exOps := ⟨fun _ _ => rfl, fun _ _ => rfl⟩

theorem pf2 : partialFactor 2 = [(2, 1)] := by
  have h1 : stripFactor 2 1 1 = (1, 1) := by rw [stripFactor]; simp
  have h2 : stripFactor 2 2 0 = (1, 1) := by rw [stripFactor]; simp [h1]
  have h3 : factorLoop 100 3 1 [(2, 1)] = (1, [(2, 1)]) := by rw [factorLoop]; simp
  simp [partialFactor, h2, h3]

/-- `2 n 2^n + 2 2^n` -/
def double : Expr := .add [.mul [.num 2, .pow (.num 2) (.sym "n"), .sym "n"], .mul [.num 2, .pow (.num 2) (.sym "n")]]

theorem split1 : splitBases (.mul [.num 2, .pow (.num 2) (.sym "n"), .sym "n"]) =
    [(.num 2, .num 1), (.sym "n", .num 1), (.num 2, .sym "n")] := by
  simp [splitBases, splitFactor, splitInt, pf2]

theorem split2 : splitBases (.mul [.num 2, .pow (.num 2) (.sym "n")]) = [(.num 2, .num 1), (.num 2, .sym "n")] := by
  simp [splitBases, splitFactor, splitInt, pf2]

/-- **C50** is false for `2 n 2^n + 2 2^n`: with the base `2` both in the coefficient and in the exponential the result is
`2^n (2^(1-n) n + 2^(1-n)) = 2 n + 2`. -/
theorem C50_repeated_base_refuted (ξ : ℝ → ℝ) : ∃ r, factorize exOps 1 double = some r ∧
    ∀ ρ : String → ℝ, ρ "n" = 1 → eval (realInterp ξ) ρ r.1 * eval (realInterp ξ) ρ r.2 = 4 ∧ eval (realInterp ξ) ρ double = 8 := by
  have hsum : factorSum [.mul [.num 2, .pow (.num 2) (.sym "n"), .sym "n"], .mul [.num 2, .pow (.num 2) (.sym "n")]] =
      ([(.num 2, .sym "n")], addE (addE (.num 0) (mulE (.num 1) (powE (.num 2) (subE (.num 1) (.sym "n")))))
      (mulE (mulE (mulE (.num 1) (.num 1)) (powE (.sym "n") (.num 1))) (powE (.num 2) (subE (.num 1) (.sym "n"))))) := by
    simp [factorSum, collect, split1, split2, inAllFactors, inAll, findExp, meet, assign, leftOver, isPosInt]
  have hnum : noRatio exOps 1 double = some (prodOf [(.num 2, .sym "n")], addE (addE (.num 0) (mulE (.num 1) (powE (.num 2) (subE (.num 1) (.sym "n")))))
      (mulE (mulE (mulE (.num 1) (.num 1)) (powE (.sym "n") (.num 1))) (powE (.num 2) (subE (.num 1) (.sym "n"))))) := by
    rw [noRatio, noRatioStep, show prepared exOps double = double from rfl]
    unfold double
    dsimp only
    rw [hsum]
  have hden : noRatio exOps 1 (.num 1) = some (.num 1, .num 1) := by
    simp [noRatio, noRatioStep, prepared, exOps]
  have hfac := factorize_num exOps (e := double) hnum hden
  refine ⟨_, hfac, ?_⟩
  · intro ρ hρ
    have h0 : (realInterp ξ).pw 2 0 = 1 := by simpa using (realInterp ξ).pw_int 2 0
    have h1 : (realInterp ξ).pw 2 1 = 2 := by simpa using (realInterp ξ).pw_int 2 1
    have h2 : (realInterp ξ).pw 1 1 = 1 := by simpa using (realInterp ξ).pw_int 1 1
    constructor
    · rw [eval_quo, eval_mulE, prodOf_val]
      simp only [eval_addE, eval_mulE, eval_powE, eval_subE, eval, powVal, List.map_cons, List.map_nil, List.prod_cons, List.prod_nil, hρ]
      norm_num [h0, h1, h2]
    · simp only [double, eval, List.map_cons, List.map_nil, List.prod_cons, List.prod_nil, List.sum_cons, List.sum_nil, hρ]
      norm_num [h1]

/-- A case that meets the hypotheses: `2 a n^2 + 2 n`, for all values. -/
def exFine : Expr := .add [.mul [.num 2, .sym "a", .pow (.sym "n") (.num 2)], .mul [.num 2, .sym "n"]]

theorem exFine_ok : Fine exOps 1 exFine := by
  have h1 : splitBases (.mul [.num 2, .sym "a", .pow (.sym "n") (.num 2)]) = [(.num 2, .num 1), (.sym "n", .num 2), (.sym "a", .num 1)] := by
    simp [splitBases, splitFactor, splitInt, pf2]
  have h2 : splitBases (.mul [.num 2, .sym "n"]) = [(.num 2, .num 1), (.sym "n", .num 1)] := by
    simp [splitBases, splitFactor, splitInt, pf2]
  intro t ht
  simp only [List.mem_cons, List.not_mem_nil, or_false] at ht
  rcases ht with rfl | rfl
  · refine ⟨?_, by simp, fun l hl => by cases hl; simp⟩
    unfold Distinct
    rw [h1]
    simp
  · refine ⟨?_, by simp, fun l hl => by cases hl; simp⟩
    unfold Distinct
    rw [h2]
    simp

example : ∃ r, factorize exOps 1 exFine = some r ∧ ∀ ρ : String → K, eval I ρ r.1 * eval I ρ r.2 = eval I ρ exFine := by
  have hn : noRatio exOps 1 exFine = some (prodOf (factorSum [.mul [.num 2, .sym "a", .pow (.sym "n") (.num 2)], .mul [.num 2, .sym "n"]]).1,
      (factorSum [.mul [.num 2, .sym "a", .pow (.sym "n") (.num 2)], .mul [.num 2, .sym "n"]]).2) := rfl
  have hden : noRatio exOps 1 (.num 1) = some (.num 1, .num 1) := by
    simp [noRatio, noRatioStep, prepared, exOps]
  have h := factorize_num exOps (e := exFine) hn hden
  exact ⟨_, h, fun ρ => C50_factorize_partial I exOps (exOps_ok I) 1 ρ (by simp [exOps, eval]) exFine_ok trivial h⟩

end Purrs.Factorize
