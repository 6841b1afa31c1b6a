import Verif.Model.NumDen
import Verif.Props.Factorize
import Verif.Props.OrderRedExp
import Mathlib.Data.Nat.Factorization.Basic

/-!
# C51: numerator and denominator

The specification: the numerator divided by the denominator has the value of the expression, for every assignment of the symbols
for which no denominator of a summand vanishes.
-/

set_option linter.unusedSectionVars false

namespace Purrs.NumDen

open Purrs Purrs.Factorize

/-! ### The exponents of a base -/

/-- The exponents with which `b` is in the list. -/
def En (b : Expr) (l : List (Expr × Expr)) : List Expr := (l.filter fun p => p.1 = b).map Prod.snd

/-- No exponent, or one positive exponent. -/
def exl : ℕ → List Expr
  | 0 => []
  | k + 1 => [.num ((k + 1 : ℕ) : ℚ)]

theorem En_nil (b : Expr) : En b [] = [] := rfl

theorem En_cons_eq (b x : Expr) (l) : En b ((b, x) :: l) = x :: En b l := by simp [En]

theorem En_cons_ne {b : Expr} {p : Expr × Expr} (h : p.1 ≠ b) (l) : En b (p :: l) = En b l := by simp [En, h]

theorem En_append (b : Expr) (l m) : En b (l ++ m) = En b l ++ En b m := by simp [En]

theorem En_reverse (b : Expr) (l) : En b l.reverse = (En b l).reverse := by simp [En]

theorem exl_reverse (k : ℕ) : (exl k).reverse = exl k := by cases k <;> simp [exl]

theorem exl_pos {k : ℕ} (hk : 0 < k) : exl k = [.num (k : ℚ)] := by
  cases k with
  | zero => omega
  | succ k => rfl

theorem exl_inj {j k : ℕ} (h : exl j = exl k) : j = k := by
  cases j <;> cases k <;> simp [exl] at h ⊢
  exact_mod_cast h

theorem En_eq_nil {b : Expr} {l} : En b l = [] ↔ ∀ p ∈ l, p.1 ≠ b := by
  simp [En]

/-- Every base except `1` is there at most once, with a positive integer exponent. -/
def KL (l : List (Expr × Expr)) : Prop := ∀ b, b ≠ .num 1 → ∃ k, En b l = exl k

theorem KL.tail {p : Expr × Expr} {l} (h : KL (p :: l)) : KL l := by
  intro b hb
  obtain ⟨k, hk⟩ := h b hb
  by_cases hp : p.1 = b
  · obtain ⟨x, y⟩ := p
    subst hp
    rw [En_cons_eq] at hk
    cases k with
    | zero => simp [exl] at hk
    | succ k => refine ⟨0, ?_⟩; simp [exl] at hk ⊢; exact hk.2
  · exact ⟨k, by rw [En_cons_ne hp] at hk; exact hk⟩

theorem KL.head {b x : Expr} {l} (h : KL ((b, x) :: l)) (hb : b ≠ .num 1) : ∃ k : ℕ, 0 < k ∧ x = .num k ∧ En b l = [] := by
  obtain ⟨k, hk⟩ := h b hb
  rw [En_cons_eq] at hk
  cases k with
  | zero => simp [exl] at hk
  | succ k => simp [exl] at hk; exact ⟨k + 1, by omega, by simpa using hk.1, hk.2⟩

/-! ### The common denominator: the maximum of the exponents -/

theorem larger_pos {a c : ℕ} (ha : 0 < a) (hc : 0 < c) : larger (.num a) (.num c) = some (.num ((max a c : ℕ) : ℚ)) := by
  have h1 : isPosInt (.num (a : ℚ)) = true := posInt_num.mpr ⟨a, ha, rfl⟩
  have h2 : isPosInt (.num (c : ℚ)) = true := posInt_num.mpr ⟨c, hc, rfl⟩
  simp only [larger, h1, h2, Bool.and_self, if_true]
  by_cases h : (a : ℚ) ≥ c
  · have : c ≤ a := by exact_mod_cast h
    rw [if_pos h, max_eq_left this]
  · have : a ≤ c := by
      have h' : (a : ℚ) ≤ c := by linarith [not_le.mp h]
      exact_mod_cast h'
    rw [if_neg h, max_eq_right this]

/-- The search for another base does not change the exponents of `b`. -/
theorem matchBase_other {b b' : Expr} (hb : b' ≠ b) (x : Expr) (l) {r} (h : matchBase b' x l = some r) :
    En b r.1 = [] ∧ En b r.2 = En b l := by
  induction l generalizing r with
  | nil => simp [matchBase] at h
  | cons p l ih =>
    unfold matchBase at h
    by_cases hp : p.1 = b'
    · rw [if_pos hp] at h
      cases h
      have h1 : p.1 ≠ b := by rw [hp]; exact hb
      refine ⟨?_, ?_⟩
      · split
        · rw [En_eq_nil]; intro q hq; simp at hq; rw [hq]; exact hb
        · rw [En_eq_nil]; intro q hq; simp at hq; rcases hq with rfl | rfl <;> exact hb
      · rw [En_cons_ne h1, En_cons_ne (p := (p.1, Expr.num 0)) h1]
    · rw [if_neg hp] at h
      obtain ⟨r', h', rfl⟩ := Option.map_eq_some_iff.mp h
      obtain ⟨i1, i2⟩ := ih h'
      refine ⟨i1, ?_⟩
      by_cases hq : p.1 = b
      · obtain ⟨y, z⟩ := p
        subst hq
        simp only [En_cons_eq, i2]
      · simp only [En_cons_ne hq, i2]

theorem matchBase_none {b x : Expr} {l} (h : En b l = []) : matchBase b x l = none := by
  induction l with
  | nil => rfl
  | cons p l ih =>
    have h1 : p.1 ≠ b := (En_eq_nil.mp h) p (by simp)
    rw [En_cons_ne h1] at h
    unfold matchBase
    rw [if_neg h1, ih h]; rfl

theorem matchBase_some {b : Expr} {a c : ℕ} (ha : 0 < a) (hc : 0 < c) {l} (h : En b l = [.num c]) :
    ∃ m, matchBase b (.num a) l = some ([(b, .num ((max a c : ℕ) : ℚ))], m) ∧ En b m = [.num 0] := by
  induction l with
  | nil => simp [En] at h
  | cons p l ih =>
    by_cases hp : p.1 = b
    · obtain ⟨y, z⟩ := p
      subst hp
      rw [En_cons_eq] at h
      simp only [List.cons.injEq] at h
      refine ⟨(y, .num 0) :: l, ?_, ?_⟩
      · simp only [matchBase, if_true, h.1, larger_pos ha hc]
      · rw [En_cons_eq, h.2]
    · rw [En_cons_ne hp] at h
      obtain ⟨m, h1, h2⟩ := ih h
      refine ⟨p :: m, ?_, ?_⟩
      · unfold matchBase
        rw [if_neg hp, h1]; rfl
      · rw [En_cons_ne hp, h2]

theorem takeStep_other {b : Expr} {p : Expr × Expr} (hb : p.1 ≠ b) (st) :
    En b (takeStep p st).1 = En b st.1 ∧ En b (takeStep p st).2 = En b st.2 := by
  unfold takeStep
  split
  · split
    · rename_i r h
      obtain ⟨h1, h2⟩ := matchBase_other hb _ _ h
      exact ⟨by rw [En_append, h1]; rfl, h2⟩
    · exact ⟨En_cons_ne hb _, rfl⟩
  · exact ⟨En_cons_ne hb _, rfl⟩

/-- The loop over the first product. -/
theorem takeFold {b : Expr} (hb : b ≠ .num 1) {l1 l2 : List (Expr × Expr)} (h1 : KL l1) {c : ℕ} (h2 : En b l2 = exl c) :
    ∃ a, En b l1 = exl a ∧
      ((a = 0 ∧ En b (l1.foldr (fun p st => takeStep p st) ([], l2)).1 = [] ∧ En b (l1.foldr (fun p st => takeStep p st) ([], l2)).2 = exl c) ∨
      (0 < a ∧ En b (l1.foldr (fun p st => takeStep p st) ([], l2)).1 = [.num ((max a c : ℕ) : ℚ)] ∧
        (En b (l1.foldr (fun p st => takeStep p st) ([], l2)).2 = [] ∨ En b (l1.foldr (fun p st => takeStep p st) ([], l2)).2 = [.num 0]))) := by
  induction l1 with
  | nil => exact ⟨0, rfl, .inl ⟨rfl, rfl, h2⟩⟩
  | cons p l ih =>
    obtain ⟨a, e1, e2⟩ := ih h1.tail
    rw [List.foldr_cons]
    generalize l.foldr (fun p st => takeStep p st) ([], l2) = st at e2
    by_cases hp : p.1 = b
    · obtain ⟨b', x⟩ := p
      simp only at hp
      subst hp
      obtain ⟨k, hk, rfl, hn⟩ := h1.head hb
      rw [hn] at e1
      have ha : a = 0 := by cases a with
        | zero => rfl
        | succ a => simp [exl] at e1
      subst ha
      rcases e2 with ⟨_, s1, s2⟩ | ⟨h, _⟩
      swap; · omega
      refine ⟨k, by rw [En_cons_eq, hn, exl_pos hk], .inr ⟨hk, ?_⟩⟩
      have hpi : isPosInt (.num (k : ℚ)) = true := posInt_num.mpr ⟨k, hk, rfl⟩
      unfold takeStep
      simp only [hpi, if_true]
      cases c with
      | zero =>
        rw [matchBase_none (by rw [s2]; rfl)]
        exact ⟨by rw [En_cons_eq, s1]; simp, .inl s2⟩
      | succ c =>
        obtain ⟨m, m1, m2⟩ := matchBase_some (b := b') (a := k) (c := c + 1) hk (by omega) (l := st.2) s2
        rw [m1]
        refine ⟨?_, .inr m2⟩
        simp only [List.singleton_append]
        rw [En_cons_eq, s1]
    · obtain ⟨t1, t2⟩ := takeStep_other hp st
      rw [t1, t2]
      exact ⟨a, by rw [En_cons_ne hp, e1], e2⟩

/-- The rest of the second product. -/
theorem restFold (b : Expr) (l acc : List (Expr × Expr)) :
    En b (l.foldl (fun acc p => if p.2 = .num 0 then acc else p :: acc) acc) = ((En b l).filter fun x => x ≠ .num 0).reverse ++ En b acc := by
  induction l generalizing acc with
  | nil => simp [En_nil]
  | cons p l ih =>
    rw [List.foldl_cons, ih]
    obtain ⟨y, z⟩ := p
    by_cases hp : y = b
    · subst hp
      rw [En_cons_eq]
      by_cases hz : z = .num 0
      · simp [hz]
      · simp [hz, En_cons_eq]
    · rw [En_cons_ne hp]
      by_cases hz : z = .num 0
      · simp [hz]
      · simp only [if_neg hz]
        rw [En_cons_ne (p := (y, z)) hp]

/-- The exponents in the common denominator are the maxima. -/
theorem takeList_spec {b : Expr} (hb : b ≠ .num 1) {l1 l2 : List (Expr × Expr)} {a c : ℕ} (h1 : KL l1) (e1 : En b l1 = exl a)
    (e2 : En b l2 = exl c) : En b (takeList l1 l2) = exl (max a c) := by
  obtain ⟨a', f1, f2⟩ := takeFold hb h1 (l2 := l2.reverse) (c := c) (by rw [En_reverse, e2, exl_reverse])
  have : a' = a := exl_inj (by rw [← f1, e1])
  subst this
  unfold takeList
  dsimp only
  rw [restFold]
  have hc : ((exl c).filter fun x => x ≠ .num 0) = exl c := by
    cases c with
    | zero => rfl
    | succ c =>
      have : ¬ ((c + 1 : ℕ) : ℚ) = 0 := by exact_mod_cast (Nat.succ_ne_zero c)
      simp only [exl]
      rw [List.filter_cons_of_pos]
      · rfl
      · simpa using this
  rcases f2 with ⟨rfl, s1, s2⟩ | ⟨hp, s1, s2⟩
  · rw [s1, s2, hc, exl_reverse]; simp
  · rw [s1, exl_pos (k := max a' c) (by omega)]
    rcases s2 with s2 | s2 <;> rw [s2] <;> simp

/-! ### Denominators -/

variable {K : Type} [Field K] [CharZero K] (I : Interp K)

/-- The value of a denominator. -/
def Den.val (ρ : String → K) (d : Den) : K := (d.coef : K) * powVal I ρ d.rest

theorem eval_denExpr (ρ : String → K) (d : Den) : eval I ρ d.expr = d.val I ρ := by
  rw [Den.expr, eval_mulE, prodOf_val]
  simp [eval, Den.val]

/-- The base is a number. -/
def isNumB : Expr → Bool
  | .num _ => true
  | _ => false

/-- `partial_factor` factors the number completely. -/
def Clean (c : ℕ) : Prop := ∀ p ∈ partialFactor c, p.1 = 1 ∨ p.1.Prime

/-- Numbers less than `101²` are factored completely. -/
theorem clean_of_lt {c : ℕ} (h0 : 0 < c) (h : c < 10201) : Clean c := by
  intro p hp
  by_cases h1 : c = 1
  · subst h1
    rw [C04_partialFactor_unit _ (by simp)] at hp
    simp at hp
    exact .inl (by rw [hp])
  · have hs := (C04_partialFactor_shape (c : ℤ) (by simp; omega)).1 p hp
    right
    apply hs.2.2
    have hv := C04_partialFactor_value (c : ℤ) (by omega)
    have hd : p.1 ∣ factorizationValue (partialFactor c) := by
      unfold factorizationValue
      exact (dvd_pow_self p.1 (by omega)).trans (List.dvd_prod (List.mem_map.mpr ⟨p, hp, rfl⟩))
    rw [hv] at hd
    have := Nat.le_of_dvd (by simpa using h0) hd
    simp at this
    omega

/-- The denominators for which the code is right: positive coefficient, every other base once, with a positive integer exponent,
and not a number. -/
structure Simple (d : Den) : Prop where
  coef : 0 < d.coef
  once : ∀ b, ∃ k, En b d.rest = exl k
  noNum : ∀ p ∈ d.rest, isNumB p.1 = false

/-- The exponent of a base in a denominator. -/
def natOf : Expr → ℕ
  | .num q => q.num.toNat
  | _ => 0

theorem natOf_exl (k : ℕ) : ((exl k).map natOf).sum = k := by
  cases k with
  | zero => rfl
  | succ k =>
    simp only [exl, List.map_cons, List.map_nil, List.sum_cons, List.sum_nil, natOf]
    rw [Rat.num_natCast]; simp

/-- The exponent of a base. -/
def Den.ex (d : Den) : Expr → ℕ
  | .num q => if q.den = 1 ∧ 0 ≤ q then d.coef.factorization q.num.toNat else 0
  | b => ((En b d.rest).map natOf).sum

theorem ex_nonNum {d : Den} {b : Expr} (hb : isNumB b = false) : d.ex b = ((En b d.rest).map natOf).sum := by
  cases b <;> simp [isNumB] at hb <;> rfl

theorem ex_num (d : Den) (q : ℚ) : d.ex (.num q) = if q.den = 1 ∧ 0 ≤ q then d.coef.factorization q.num.toNat else 0 := rfl

/-- The pairs of `partial_factor`, for a number that is factored completely. -/
theorem En_partial {c : ℕ} (h0 : 0 < c) (hc : Clean c) {q : ℚ} (hq : q ≠ 1) :
    En (.num q) ((partialFactor c).map fun p => (Expr.num p.1, Expr.num p.2)) =
      exl (if q.den = 1 ∧ 0 ≤ q then c.factorization q.num.toNat else 0) := by
  by_cases h1 : c = 1
  · subst h1
    rw [C04_partialFactor_unit _ (by simp)]
    rw [En_eq_nil.mpr (by intro p hp; simp at hp; rw [hp]; simp; exact fun h => hq h.symm)]
    simp [exl]
  have hs := C04_partialFactor_shape (c : ℤ) (by simp; omega)
  have hv := C04_partialFactor_value (c : ℤ) (by omega)
  have hpr : ∀ p ∈ partialFactor (c : ℤ), p.1.Prime := by
    intro p hp
    rcases hc p hp with h | h
    · have := (hs.1 p hp).2.1; omega
    · exact h
  have key : ∀ l : List (ℕ × ℕ), (∀ p ∈ l, p.1.Prime ∧ 1 ≤ p.2) → (l.map Prod.fst).Nodup →
      (l.map fun p : ℕ × ℕ => p.1 ^ p.2).prod ≠ 0 ∧
      En (.num q) (l.map fun p : ℕ × ℕ => (Expr.num (p.1 : ℚ), Expr.num (p.2 : ℚ))) =
        exl (if q.den = 1 ∧ 0 ≤ q then (l.map fun p : ℕ × ℕ => p.1 ^ p.2).prod.factorization q.num.toNat else 0) := by
    intro l
    induction l with
    | nil => intro _ _; simp [En_nil]; rfl
    | cons p l ih =>
      intro h1 h2
      simp only [List.map_cons, List.nodup_cons] at h2
      obtain ⟨i0, i1⟩ := ih (fun p hp => h1 p (by simp [hp])) h2.2
      obtain ⟨hp, hp1⟩ := h1 p (by simp)
      have hne : p.1 ^ p.2 ≠ 0 := pow_ne_zero _ hp.ne_zero
      refine ⟨by simp only [List.map_cons, List.prod_cons]; exact mul_ne_zero hne i0, ?_⟩
      simp only [List.map_cons, List.prod_cons]
      rw [Nat.factorization_mul hne i0, hp.factorization_pow]
      by_cases hq' : q = (p.1 : ℚ)
      · subst hq'
        have hn : En (.num (p.1 : ℚ)) (l.map fun p : ℕ × ℕ => (Expr.num (p.1 : ℚ), Expr.num (p.2 : ℚ))) = [] := by
          rw [En_eq_nil]
          intro r hr
          obtain ⟨s, hs, rfl⟩ := List.mem_map.mp hr
          simp only [ne_eq, Expr.num.injEq, Nat.cast_inj]
          intro h
          exact h2.1 (List.mem_map.mpr ⟨s, hs, h⟩)
        rw [En_cons_eq, hn]
        have hz := i1
        rw [hn] at hz
        have h0 : (0 : ℚ) ≤ (p.1 : ℚ) := by positivity
        have hden : ((p.1 : ℕ) : ℚ).den = 1 := by simp
        rw [if_pos ⟨hden, h0⟩] at hz ⊢
        have hnum : ((p.1 : ℕ) : ℚ).num.toNat = p.1 := by simp
        rw [hnum] at hz ⊢
        have hzero : (l.map fun p : ℕ × ℕ => p.1 ^ p.2).prod.factorization p.1 = 0 := (exl_inj (show exl 0 = _ from hz)).symm
        rw [Finsupp.add_apply, hzero, Finsupp.single_eq_same, add_zero, exl_pos hp1]
      · have hne' : (Expr.num (p.1 : ℚ), Expr.num (p.2 : ℚ)).1 ≠ .num q := by
          simp only [ne_eq, Expr.num.injEq]; exact fun h => hq' h.symm
        rw [En_cons_ne hne', i1]
        congr 1
        split
        · rename_i hd
          rw [Finsupp.add_apply, Finsupp.single_eq_of_ne, zero_add]
          intro h
          apply hq'
          have h3 : q = (q.num : ℚ) := by
            conv_lhs => rw [← Rat.num_div_den q]
            rw [hd.1]; simp
          have h4 : ((q.num.toNat : ℕ) : ℤ) = q.num := Int.toNat_of_nonneg (Rat.num_nonneg.mpr hd.2)
          rw [h3, ← h4, h]; simp
        · rfl
  have := (key (partialFactor (c : ℤ)) (fun p hp => ⟨hpr p hp, (hs.1 p hp).1⟩) hs.2).2
  unfold factorizationValue at hv
  rw [hv] at this
  simpa using this

/-- The pairs of a denominator. -/
theorem split_spec {d : Den} (h : Simple d) (hc : Clean d.coef) {b : Expr} (hb : b ≠ .num 1) : En b d.split = exl (d.ex b) := by
  have hrest : isNumB b = true → En b d.rest.reverse = [] := by
    intro hn
    rw [En_eq_nil]
    intro p hp he
    rw [List.mem_reverse] at hp
    have := h.noNum p hp
    rw [he, hn] at this; cases this
  have hint : En b (splitInt (d.coef : ℤ) []) = En b ((partialFactor d.coef).map fun p => (Expr.num p.1, Expr.num p.2)) := by
    unfold splitInt
    rw [En_append]
    have : En b ([] ++ (if (d.coef : ℤ) < 0 then [(Expr.num (-1), Expr.num 1)] else []) ++ (if (d.coef : ℤ) = 1 then [(Expr.num 1, Expr.num 1)] else [])) = [] := by
      rw [if_neg (by omega)]
      rw [En_eq_nil]
      intro p hp
      simp at hp
      rw [hp.2]; exact hb.symm
    rw [this, List.append_nil]
  by_cases hn : isNumB b = true
  · cases b <;> simp [isNumB] at hn
    rename_i q
    have hq : q ≠ 1 := fun h => hb (by rw [h])
    rw [ex_num]
    unfold Den.split
    split
    · rename_i h1
      rw [hrest rfl, h1.1]; simp [exl]
    · rw [En_append, hint, hrest rfl, En_partial h.coef hc hq, List.append_nil]
  · have hn : isNumB b = false := by simpa using hn
    rw [ex_nonNum hn]
    obtain ⟨k, hk⟩ := h.once b
    have h2 : En b d.rest.reverse = exl k := by rw [En_reverse, hk, exl_reverse]
    rw [hk, natOf_exl]
    unfold Den.split
    split
    · exact h2
    · rw [En_append, h2, hint]
      have : En b ((partialFactor d.coef).map fun p => (Expr.num p.1, Expr.num p.2)) = [] := by
        rw [En_eq_nil]
        rintro p hp rfl
        obtain ⟨r, _, rfl⟩ := List.mem_map.mp hp
        simp [isNumB] at hn
      rw [this, List.nil_append]

theorem split_KL {d : Den} (h : Simple d) (hc : Clean d.coef) : KL d.split := fun _ hb => ⟨_, split_spec h hc hb⟩

/-! ### The product of powers -/

theorem mulPow_one (d : Den) (x : Expr) : d.mulPow (.num 1) x = d := by
  cases x <;> simp [Den.mulPow]

theorem mulPow_nat (d : Den) {m k : ℕ} (hm : 0 < m) (hk : 0 < k) :
    d.mulPow (.num (m : ℚ)) (.num (k : ℚ)) = ⟨d.coef * m ^ k, d.rest⟩ := by
  have hk' : ¬ (k : ℚ) = 0 := by exact_mod_cast hk.ne'
  have hm' : (0 : ℚ) < m := by exact_mod_cast hm
  have hp : isPosInt (.num (k : ℚ)) = true := posInt_num.mpr ⟨k, hk, rfl⟩
  simp only [Den.mulPow, hk', or_false]
  by_cases h1 : (m : ℚ) = 1
  · have : m = 1 := by exact_mod_cast h1
    subst this
    simp
  · rw [if_neg h1, if_pos ⟨by simp, hm', hp⟩]
    simp

theorem addExp_none {b : Expr} {a : ℚ} {l : List (Expr × Expr)} (h : En b l = []) : addExp b a l = none := by
  induction l with
  | nil => rfl
  | cons p l ih =>
    have h1 : p.1 ≠ b := (En_eq_nil.mp h) p (by simp)
    rw [En_cons_ne h1] at h
    unfold addExp
    split
    · rw [if_neg h1, ih h]; rfl
    · rw [ih h]; rfl

theorem mulPow_new (d : Den) {b : Expr} (hb : isNumB b = false) {k : ℕ} (hk : 0 < k) (h : En b d.rest = []) :
    d.mulPow b (.num (k : ℚ)) = ⟨d.coef, d.rest ++ [(b, .num (k : ℚ))]⟩ := by
  have hk' : ¬ (k : ℚ) = 0 := by exact_mod_cast hk.ne'
  have := addExp_none (a := (k : ℚ)) h
  cases b <;> simp [isNumB] at hb <;> simp [Den.mulPow, hk', this]

/-- The numbers among the bases are primes or `1`. -/
def PrimeKeys (l : List (Expr × Expr)) : Prop := ∀ p ∈ l, ∀ q, p.1 = .num q → q = 1 ∨ ∃ m : ℕ, m.Prime ∧ q = m

theorem denOf_spec {l : List (Expr × Expr)} (h : KL l) (hp : PrimeKeys l) :
    Simple (denOf l) ∧ (∀ b, isNumB b = false → En b (denOf l).rest = En b l) ∧
      ∀ m : ℕ, m.Prime → (denOf l).coef.factorization m = ((En (.num m) l).map natOf).sum := by
  induction l with
  | nil => exact ⟨⟨by simp [denOf, Den.one], fun b => ⟨0, by simp [denOf, Den.one, En_nil, exl]⟩, by simp [denOf, Den.one]⟩,
      by simp [denOf, Den.one, En_nil], by simp [denOf, Den.one, En_nil]⟩
  | cons p l ih =>
    obtain ⟨i1, i2, i3⟩ := ih h.tail (fun r hr => hp r (by simp [hr]))
    obtain ⟨b, x⟩ := p
    have hd : denOf ((b, x) :: l) = (denOf l).mulPow b x := rfl
    rw [hd]
    generalize denOf l = d at *
    by_cases hb1 : b = .num 1
    · subst hb1
      rw [mulPow_one]
      refine ⟨i1, fun b hb => ?_, fun m hm => ?_⟩
      · rw [En_cons_ne, i2 b hb]
        rintro rfl; simp [isNumB] at hb
      · rw [En_cons_ne, i3 m hm]
        simp only [ne_eq, Expr.num.injEq]
        intro h; have : m = 1 := by exact_mod_cast h.symm
        exact hm.ne_one this
    · obtain ⟨k, hk, rfl, hn⟩ := h.head hb1
      by_cases hbn : isNumB b = true
      · cases b <;> simp [isNumB] at hbn
        rename_i q
        rcases hp (.num q, .num (k : ℚ)) (by simp) q rfl with rfl | ⟨m, hm, rfl⟩
        · exact absurd rfl hb1
        · rw [mulPow_nat d hm.pos hk]
          refine ⟨⟨Nat.mul_pos i1.coef (pow_pos hm.pos k), i1.once, i1.noNum⟩, fun b hb => ?_, fun m' hm' => ?_⟩
          · rw [En_cons_ne, ← i2 b hb]
            rintro rfl; simp [isNumB] at hb
          · dsimp only
            rw [Nat.factorization_mul i1.coef.ne' (pow_ne_zero _ hm.ne_zero), hm.factorization_pow, Finsupp.add_apply, i3 m' hm']
            by_cases he : m' = m
            · subst he
              rw [En_cons_eq, Finsupp.single_eq_same]
              simp [natOf]; omega
            · rw [Finsupp.single_eq_of_ne he, En_cons_ne]
              · simp
              · simp only [ne_eq, Expr.num.injEq, Nat.cast_inj]; exact fun h => he h.symm
      · have hbn : isNumB b = false := by simpa using hbn
        have hnr : En b d.rest = [] := by rw [i2 b hbn, hn]
        rw [mulPow_new d hbn hk hnr]
        have hall : ∀ b', isNumB b' = false → En b' (d.rest ++ [(b, Expr.num (k : ℚ))]) = En b' ((b, Expr.num (k : ℚ)) :: l) := by
          intro b' hb'
          rw [En_append, i2 b' hb']
          by_cases he : b = b'
          · subst he
            rw [En_cons_eq, hn, En_cons_eq, hn]; rfl
          · rw [En_cons_ne (p := (b, Expr.num (k : ℚ))) he, En_cons_ne (p := (b, Expr.num (k : ℚ))) he]; simp [En_nil]
        refine ⟨⟨i1.coef, fun b' => ?_, ?_⟩, hall, fun m hm => ?_⟩
        · by_cases hb' : isNumB b' = true
          · refine ⟨0, En_eq_nil.mpr ?_⟩
            intro p hp he
            rcases List.mem_append.mp hp with h' | h'
            · have := i1.noNum p h'; rw [he, hb'] at this; cases this
            · simp at h'; subst h'; simp only at he; rw [he, hb'] at hbn; cases hbn
          · have hb' : isNumB b' = false := by simpa using hb'
            dsimp only
            rw [hall b' hb']
            exact h b' (by rintro rfl; simp [isNumB] at hb')
        · intro p hp
          rcases List.mem_append.mp hp with h' | h'
          · exact i1.noNum p h'
          · simp at h'; subst h'; exact hbn
        · dsimp only
          rw [i3 m hm, En_cons_ne]
          rintro rfl; simp [isNumB] at hbn

theorem ex_num_nonprime {d : Den} {q : ℚ} (h : ¬ ∃ m : ℕ, m.Prime ∧ q = m) : d.ex (.num q) = 0 := by
  rw [ex_num]
  split
  · rename_i hd
    apply Nat.factorization_eq_zero_of_not_prime
    intro hp
    apply h
    refine ⟨_, hp, ?_⟩
    have h3 : q = (q.num : ℚ) := by
      conv_lhs => rw [← Rat.num_div_den q]
      rw [hd.1]; simp
    have h4 : ((q.num.toNat : ℕ) : ℤ) = q.num := Int.toNat_of_nonneg (Rat.num_nonneg.mpr hd.2)
    calc q = (q.num : ℚ) := h3
      _ = ((q.num.toNat : ℤ) : ℚ) := by rw [h4]
      _ = _ := Int.cast_natCast _
  · rfl

theorem ex_prime (d : Den) (m : ℕ) : d.ex (.num (m : ℚ)) = d.coef.factorization m := by
  rw [ex_num, if_pos ⟨by simp, by positivity⟩]; simp

theorem primeKeys_split {d : Den} (h : Simple d) (hc : Clean d.coef) : PrimeKeys d.split := by
  rintro p hp q hq
  by_contra hcon
  push Not at hcon
  have h1 : Expr.num q ≠ .num 1 := by simpa using hcon.1
  have := split_spec h hc h1
  rw [ex_num_nonprime (by push Not; exact hcon.2)] at this
  exact (En_eq_nil.mp this) p hp hq

/-- The common denominator: every base has the larger of the two exponents, and the coefficient is the least common multiple. -/
theorem takeCommon_spec {d f : Den} (hd : Simple d) (hf : Simple f) (cd : Clean d.coef) (cf : Clean f.coef) :
    Simple (takeCommon d f) ∧ (takeCommon d f).coef = Nat.lcm d.coef f.coef ∧
      ∀ b, b ≠ .num 1 → (takeCommon d f).ex b = max (d.ex b) (f.ex b) := by
  have hE : ∀ b, b ≠ .num 1 → En b (takeList d.split f.split) = exl (max (d.ex b) (f.ex b)) := fun b hb =>
    takeList_spec hb (split_KL hd cd) (split_spec hd cd hb) (split_spec hf cf hb)
  have hKL : KL (takeList d.split f.split) := fun b hb => ⟨_, hE b hb⟩
  have hPK : PrimeKeys (takeList d.split f.split) := by
    rintro p hp q hq
    by_contra hcon
    push Not at hcon
    have h1 : Expr.num q ≠ .num 1 := by simpa using hcon.1
    have := hE _ h1
    rw [ex_num_nonprime (by push Not; exact hcon.2), ex_num_nonprime (by push Not; exact hcon.2)] at this
    exact (En_eq_nil.mp this) p hp hq
  obtain ⟨s1, s2, s3⟩ := denOf_spec hKL hPK
  have hfac : ∀ m : ℕ, m.Prime → (takeCommon d f).coef.factorization m = max (d.coef.factorization m) (f.coef.factorization m) := by
    intro m hm
    have h1 : Expr.num (m : ℚ) ≠ .num 1 := by
      simp only [ne_eq, Expr.num.injEq]
      intro h; exact hm.ne_one (by exact_mod_cast h)
    rw [takeCommon, s3 m hm, hE _ h1, natOf_exl, ex_prime, ex_prime]
  refine ⟨s1, ?_, fun b hb => ?_⟩
  · apply Nat.eq_of_factorization_eq s1.coef.ne' (Nat.lcm_ne_zero hd.coef.ne' hf.coef.ne')
    intro m
    by_cases hm : m.Prime
    · rw [Nat.factorization_lcm hd.coef.ne' hf.coef.ne', Finsupp.sup_apply]
      exact hfac m hm
    · rw [Nat.factorization_eq_zero_of_not_prime _ hm, Nat.factorization_eq_zero_of_not_prime _ hm]
  · by_cases hn : isNumB b = true
    · cases b <;> simp [isNumB] at hn
      rename_i q
      by_cases hp : ∃ m : ℕ, m.Prime ∧ q = m
      · obtain ⟨m, hm, rfl⟩ := hp
        rw [ex_prime, ex_prime, ex_prime, hfac m hm]
      · rw [ex_num_nonprime hp, ex_num_nonprime hp, ex_num_nonprime hp]; rfl
    · have hn : isNumB b = false := by simpa using hn
      rw [ex_nonNum hn, takeCommon, s2 b hn, hE b hb, natOf_exl]

/-! ### The value -/

/-- The exponents are natural numbers. -/
def NatExp (l : List (Expr × Expr)) : Prop := ∀ p ∈ l, ∃ k : ℕ, p.2 = .num (k : ℚ)

theorem natOf_nat (k : ℕ) : natOf (.num (k : ℚ)) = k := by simp [natOf]

theorem powVal_finset (ρ : String → K) {l : List (Expr × Expr)} (h : NatExp l) (S : Finset Expr) (hS : ∀ p ∈ l, p.1 ∈ S) :
    powVal I ρ l = ∏ b ∈ S, eval I ρ b ^ ((En b l).map natOf).sum := by
  induction l with
  | nil => simp [powVal, En_nil]
  | cons p l ih =>
    have h1 := ih (fun p hp => h p (by simp [hp])) (fun p hp => hS p (by simp [hp]))
    obtain ⟨b, x⟩ := p
    obtain ⟨k, hk⟩ := h (b, x) (by simp)
    simp only at hk
    subst hk
    have h2 : powVal I ρ ((b, Expr.num (k : ℚ)) :: l) = eval I ρ b ^ k * powVal I ρ l := by
      simp only [powVal, List.map_cons, List.prod_cons, eval]
      congr 1
      have := pw_nat I (eval I ρ b) k
      simpa using this
    rw [h2, h1]
    have hb : b ∈ S := hS (b, Expr.num (k : ℚ)) (by simp)
    rw [← Finset.mul_prod_erase S _ hb, ← Finset.mul_prod_erase S (fun b' => eval I ρ b' ^ ((En b' ((b, Expr.num (k : ℚ)) :: l)).map natOf).sum) hb,
      ← mul_assoc]
    congr 1
    · rw [En_cons_eq, List.map_cons, List.sum_cons, natOf_nat, pow_add]
    · refine Finset.prod_congr rfl fun b' hb' => ?_
      rw [En_cons_ne]
      exact fun h => (Finset.mem_erase.mp hb').1 h.symm

theorem natExp_split {d : Den} (h : Simple d) (hc : Clean d.coef) : NatExp d.split := by
  rintro ⟨b, x⟩ hp
  by_cases hb : b = .num 1
  · subst hb
    have hpf : ∀ p ∈ splitInt (d.coef : ℤ) [], ∃ k : ℕ, p.2 = .num (k : ℚ) := by
      intro p hp
      unfold splitInt at hp
      rw [if_neg (by omega)] at hp
      rcases List.mem_append.mp hp with h' | h'
      · obtain ⟨r, _, rfl⟩ := List.mem_map.mp h'
        exact ⟨r.2, rfl⟩
      · simp at h'; exact ⟨1, by rw [h'.2]; simp⟩
    have hr : ∀ p ∈ d.rest.reverse, p.1 ≠ .num 1 := by
      intro p hp he
      have := h.noNum p (List.mem_reverse.mp hp)
      rw [he] at this; cases this
    unfold Den.split at hp
    split at hp
    · exact absurd rfl (hr _ hp)
    · rcases List.mem_append.mp hp with h' | h'
      · exact hpf _ h'
      · exact absurd rfl (hr _ h')
  · have hs := split_spec h hc hb
    have hm : x ∈ En b d.split := by
      unfold En
      exact List.mem_map.mpr ⟨(b, x), List.mem_filter.mpr ⟨hp, by simp⟩, rfl⟩
    rw [hs] at hm
    cases hk : d.ex b with
    | zero => rw [hk] at hm; simp [exl] at hm
    | succ k => rw [hk] at hm; rw [exl, List.mem_singleton] at hm; exact ⟨_, hm⟩

theorem split_val (ρ : String → K) {d : Den} (h : 0 < d.coef) : powVal I ρ d.split = d.val I ρ := by
  have hr : powVal I ρ d.rest.reverse = powVal I ρ d.rest := by
    unfold powVal; rw [List.map_reverse, List.prod_reverse]
  unfold Den.split Den.val
  split
  · rename_i h1
    rw [hr, h1.1]; simp
  · rw [powVal_append, splitInt_val I ρ (by omega), hr]; simp [powVal]

/-- What is left of a factor of the common denominator. -/
theorem numFactor_val (ρ : String → K) {f : List (Expr × Expr)} {b : Expr} {m k : ℕ} (hf : En b f = exl m) (hmk : m ≤ k) :
    eval I ρ (numFactor f (b, .num (k : ℚ))) = eval I ρ b ^ (k - m) := by
  have hpow : ∀ j : ℕ, eval I ρ (powE b (.num (j : ℚ))) = eval I ρ b ^ j := by
    intro j
    rw [eval_powE]
    have := pw_nat I (eval I ρ b) j
    simpa [eval] using this
  unfold numFactor
  cases m with
  | zero =>
    have : f.reverse.find? (fun q => decide (q.1 = (b, Expr.num (k : ℚ)).1)) = none := by
      rw [List.find?_eq_none]
      intro p hp
      have := En_eq_nil.mp hf p (List.mem_reverse.mp hp)
      simpa using this
    rw [this]
    exact hpow k
  | succ m =>
    have hfr : En b f.reverse = exl (m + 1) := by rw [En_reverse, hf, exl_reverse]
    cases hq : f.reverse.find? (fun q => decide (q.1 = (b, Expr.num (k : ℚ)).1)) with
    | none =>
      rw [List.find?_eq_none] at hq
      have : En b f.reverse = [] := En_eq_nil.mpr fun p hp => by simpa using hq p hp
      rw [hfr] at this; simp [exl] at this
    | some q =>
      have h1 := List.find?_some hq
      have h2 := List.mem_of_find?_eq_some hq
      simp only [decide_eq_true_eq] at h1
      have h3 : q.2 ∈ En b f.reverse := List.mem_map.mpr ⟨q, List.mem_filter.mpr ⟨h2, by simpa using h1⟩, rfl⟩
      rw [hfr, exl, List.mem_singleton] at h3
      dsimp only
      rw [h3]
      by_cases he : k = m + 1
      · subst he
        rw [if_pos rfl]; simp [eval]
      · have hne : ¬ (Expr.num (k : ℚ)) = .num ((m + 1 : ℕ) : ℚ) := by
          simp only [Expr.num.injEq, Nat.cast_inj]; exact he
        rw [if_neg hne]
        have p1 : isPosInt (.num (k : ℚ)) = true := posInt_num.mpr ⟨k, by omega, rfl⟩
        have p2 : isPosInt (.num ((m + 1 : ℕ) : ℚ)) = true := posInt_num.mpr ⟨m + 1, by omega, rfl⟩
        simp only [p1, p2, Bool.and_self, if_true]
        rw [show (k : ℚ) - ((m + 1 : ℕ) : ℚ) = ((k - (m + 1) : ℕ) : ℚ) by rw [Nat.cast_sub hmk]]
        exact hpow _

theorem numFactor_one (ρ : String → K) (f : List (Expr × Expr)) (x : Expr) : eval I ρ (numFactor f (.num 1, x)) = 1 := by
  have hpow : ∀ x, eval I ρ (powE (.num 1) x) = 1 := by
    intro x
    rw [eval_powE]
    simp [eval, I.one_pw]
  unfold numFactor
  split
  · split
    · simp [eval]
    · dsimp only
      split
      · split <;> exact hpow _
      · exact hpow _
  · exact hpow _

/-- The factor for a numerator times the denominator of the summand is the common denominator. -/
theorem factorFor_val (ρ : String → K) {d f : Den} (hd : Simple d) (hf : Simple f) (cd : Clean d.coef) (cf : Clean f.coef)
    (hle : ∀ b, b ≠ .num 1 → f.ex b ≤ d.ex b) : eval I ρ (factorFor d f) * f.val I ρ = d.val I ρ := by
  rw [← split_val I ρ hf.coef, ← split_val I ρ hd.coef]
  have nd := natExp_split hd cd
  have nf := natExp_split hf cf
  set S : Finset Expr := ((d.split ++ f.split).map Prod.fst).toFinset with hS
  have hSd : ∀ p ∈ d.split, p.1 ∈ S := fun p hp => by
    rw [hS, List.mem_toFinset]; exact List.mem_map.mpr ⟨p, List.mem_append_left _ hp, rfl⟩
  have hSf : ∀ p ∈ f.split, p.1 ∈ S := fun p hp => by
    rw [hS, List.mem_toFinset]; exact List.mem_map.mpr ⟨p, List.mem_append_right _ hp, rfl⟩
  set L := d.split.map fun p => (p.1, Expr.num ((natOf p.2 - f.ex p.1 : ℕ) : ℚ)) with hL
  have nL : NatExp L := by
    intro p hp
    obtain ⟨r, _, rfl⟩ := List.mem_map.mp hp
    exact ⟨_, rfl⟩
  have hSL : ∀ p ∈ L, p.1 ∈ S := by
    intro p hp
    obtain ⟨r, hr, rfl⟩ := List.mem_map.mp hp
    exact hSd r hr
  have hEL : ∀ b, En b L = (En b d.split).map fun x => Expr.num ((natOf x - f.ex b : ℕ) : ℚ) := by
    intro b
    rw [hL]
    generalize d.split = l
    induction l with
    | nil => rfl
    | cons p l ih =>
      obtain ⟨b', x⟩ := p
      rw [List.map_cons]
      by_cases he : b' = b
      · subst he
        rw [En_cons_eq, En_cons_eq, List.map_cons, ih]
      · rw [En_cons_ne (p := (b', _)) he, En_cons_ne (p := (b', x)) he, ih]
  have hval : eval I ρ (factorFor d f) = powVal I ρ L := by
    have step : ∀ l : List (Expr × Expr), (∀ p ∈ l, p ∈ d.split) →
        eval I ρ (l.foldr (fun p acc => mulE acc (numFactor f.split p)) (.num 1)) =
        powVal I ρ (l.map fun p => (p.1, Expr.num ((natOf p.2 - f.ex p.1 : ℕ) : ℚ))) := by
      intro l
      induction l with
      | nil => intro _; simp [powVal, eval]
      | cons p l ih =>
        intro hm
        rw [List.foldr_cons, eval_mulE, ih (fun p hp => hm p (by simp [hp]))]
        have hpd := hm p (by simp)
        obtain ⟨b, x⟩ := p
        obtain ⟨k, hk⟩ := nd _ hpd
        simp only at hk
        subst hk
        have h2 : powVal I ρ (((b, Expr.num (k : ℚ)) :: l).map fun p => (p.1, Expr.num ((natOf p.2 - f.ex p.1 : ℕ) : ℚ))) =
            eval I ρ b ^ (k - f.ex b) * powVal I ρ (l.map fun p => (p.1, Expr.num ((natOf p.2 - f.ex p.1 : ℕ) : ℚ))) := by
          simp only [List.map_cons, powVal, List.prod_cons, natOf_nat]
          congr 1
          have := pw_nat I (eval I ρ b) (k - f.ex b)
          simpa [eval] using this
        rw [h2]
        by_cases hb : b = .num 1
        · subst hb
          rw [numFactor_one]
          simp [eval]
        · have hk : d.ex b = k := by
            have h1 : Expr.num (k : ℚ) ∈ En b d.split := List.mem_map.mpr ⟨_, List.mem_filter.mpr ⟨hpd, by simp⟩, rfl⟩
            rw [split_spec hd cd hb] at h1
            cases he : d.ex b with
            | zero => rw [he] at h1; simp [exl] at h1
            | succ j =>
              rw [he, exl, List.mem_singleton] at h1
              exact_mod_cast (Expr.num.inj h1).symm
          rw [numFactor_val I ρ (split_spec hf cf hb) (by rw [← hk]; exact hle b hb), mul_comm]
    exact step d.split fun p hp => hp
  rw [hval, powVal_finset I ρ nL S hSL, powVal_finset I ρ nf S hSf, powVal_finset I ρ nd S hSd, ← Finset.prod_mul_distrib]
  refine Finset.prod_congr rfl fun b _ => ?_
  by_cases hb : b = .num 1
  · subst hb; simp [eval]
  · rw [hEL, split_spec hd cd hb, split_spec hf cf hb, natOf_exl, natOf_exl, ← pow_add]
    congr 1
    have := hle b hb
    cases hk : d.ex b with
    | zero => simp [exl]; omega
    | succ k =>
      rw [exl]
      simp only [List.map_cons, List.map_nil, List.sum_cons, List.sum_nil, natOf_nat]
      omega

/-! ### Sums -/

/-- All numbers that divide `M` are factored completely. -/
def Factorable (M : ℕ) : Prop := ∀ c, c ∣ M → Clean c

theorem factorable_of_lt {M : ℕ} (h0 : 0 < M) (h : M < 10201) : Factorable M := fun _ hc =>
  clean_of_lt (Nat.pos_of_dvd_of_pos hc h0) (lt_of_le_of_lt (Nat.le_of_dvd h0 hc) h)

/-- The denominators of the summands: the hypotheses of the theorem. -/
structure GoodSum (M : ℕ) (l : List (Expr × Den)) : Prop where
  simple : ∀ p ∈ l, Simple p.2
  dvd : ∀ p ∈ l, p.2.coef ∣ M
  clean : Factorable M

theorem simple_one : Simple Den.one := ⟨by simp [Den.one], fun b => ⟨0, rfl⟩, by simp [Den.one]⟩

theorem commonDen_spec {M : ℕ} {l : List (Expr × Den)} (h : GoodSum M l) :
    Simple (commonDen l) ∧ (commonDen l).coef ∣ M ∧ ∀ p ∈ l, ∀ b, b ≠ .num 1 → p.2.ex b ≤ (commonDen l).ex b := by
  induction l with
  | nil => exact ⟨simple_one, by simp [commonDen, Den.one], by simp⟩
  | cons p l ih =>
    obtain ⟨i1, i2, i3⟩ := ih ⟨fun p hp => h.simple p (by simp [hp]), fun p hp => h.dvd p (by simp [hp]), h.clean⟩
    have hp := h.dvd p (by simp)
    obtain ⟨t1, t2, t3⟩ := takeCommon_spec i1 (h.simple p (by simp)) (h.clean _ i2) (h.clean _ hp)
    have hd : commonDen (p :: l) = takeCommon (commonDen l) p.2 := rfl
    rw [hd]
    refine ⟨t1, by rw [t2]; exact Nat.lcm_dvd i2 hp, ?_⟩
    intro r hr b hb
    rw [t3 b hb]
    rcases List.mem_cons.mp hr with rfl | hr
    · exact le_max_right _ _
    · exact (i3 r hr b hb).trans (le_max_left _ _)

/-- C51 (partial): the common denominator of a sum is a common multiple of the denominators, and the numerator is right. -/
theorem C51_sum_partial {M : ℕ} {l : List (Expr × Den)} (h : GoodSum M l) (ρ : String → K) (hne : ∀ p ∈ l, p.2.val I ρ ≠ 0) :
    eval I ρ (findNumerator l (commonDen l)) = (l.map fun p => eval I ρ p.1 / p.2.val I ρ).sum * (commonDen l).val I ρ := by
  obtain ⟨s1, s2, s3⟩ := commonDen_spec h
  generalize commonDen l = d at *
  have key : ∀ m : List (Expr × Den), (∀ p ∈ m, p ∈ l) →
      eval I ρ (findNumerator m d) = (m.map fun p => eval I ρ p.1 / p.2.val I ρ).sum * d.val I ρ := by
    intro m
    induction m with
    | nil => intro _; simp [findNumerator, eval]
    | cons p m ih =>
      intro hm
      have hp := hm p (by simp)
      have hd : findNumerator (p :: m) d = addE (findNumerator m d) (mulE p.1 (if d = p.2 then .num 1 else factorFor d p.2)) := rfl
      rw [hd, eval_addE, eval_mulE, ih (fun p hp => hm p (by simp [hp])), List.map_cons, List.sum_cons, add_mul, add_comm]
      congr 1
      have hn := hne p hp
      split
      · rename_i he
        rw [he]; simp [eval]
        field_simp
      · have := factorFor_val I ρ s1 (h.simple p hp) (h.clean _ s2) (h.clean _ (h.dvd p hp)) (s3 p hp)
        rw [← this]
        field_simp
  exact key l fun p hp => hp

theorem base_ne (ρ : String → K) {d : Den} (h : Simple d) (hc : Clean d.coef) (hv : d.val I ρ ≠ 0) {b : Expr} (hb : b ≠ .num 1)
    (hx : 0 < d.ex b) : eval I ρ b ≠ 0 := by
  intro h0
  apply hv
  rw [← split_val I ρ h.coef]
  have hm : Expr.num ((d.ex b : ℕ) : ℚ) ∈ En b d.split := by
    rw [split_spec h hc hb, exl_pos hx]; simp
  obtain ⟨p, hp, he⟩ := List.mem_map.mp hm
  obtain ⟨hp, hpb⟩ := List.mem_filter.mp hp
  simp only [decide_eq_true_eq] at hpb
  apply List.prod_eq_zero
  refine List.mem_map.mpr ⟨p, hp, ?_⟩
  rw [he, hpb, h0]
  have := pw_nat I (0 : K) (d.ex b)
  simp only [eval, Rat.cast_natCast, this]
  exact zero_pow hx.ne'

theorem commonDen_attained {M : ℕ} {l : List (Expr × Den)} (h : GoodSum M l) {b : Expr} (hb : b ≠ .num 1) (hx : 0 < (commonDen l).ex b) :
    ∃ p ∈ l, 0 < p.2.ex b := by
  induction l with
  | nil =>
    exfalso
    have h0 : (commonDen []).ex b = 0 := by
      have hd : commonDen [] = Den.one := rfl
      rw [hd]
      cases b <;> simp [Den.ex, Den.one, En_nil]
    omega
  | cons p l ih =>
    have hl : GoodSum M l := ⟨fun p hp => h.simple p (by simp [hp]), fun p hp => h.dvd p (by simp [hp]), h.clean⟩
    obtain ⟨i1, i2, i3⟩ := commonDen_spec hl
    obtain ⟨t1, t2, t3⟩ := takeCommon_spec i1 (h.simple p (by simp)) (h.clean _ i2) (h.clean _ (h.dvd p (by simp)))
    have hd : commonDen (p :: l) = takeCommon (commonDen l) p.2 := rfl
    rw [hd, t3 b hb] at hx
    rcases Nat.eq_zero_or_pos (p.2.ex b) with hz | hz
    · rw [hz, max_eq_left (Nat.zero_le _)] at hx
      obtain ⟨r, hr, h2⟩ := ih hl hx
      exact ⟨r, by simp [hr], h2⟩
    · exact ⟨p, by simp, hz⟩

theorem commonDen_ne {M : ℕ} {l : List (Expr × Den)} (h : GoodSum M l) (ρ : String → K) (hne : ∀ p ∈ l, p.2.val I ρ ≠ 0) :
    (commonDen l).val I ρ ≠ 0 := by
  obtain ⟨s1, s2, s3⟩ := commonDen_spec h
  rw [← split_val I ρ s1.coef]
  have cd := h.clean _ s2
  have nd := natExp_split s1 cd
  unfold powVal
  refine List.prod_ne_zero ?_
  intro hm
  obtain ⟨⟨b, x⟩, hp, he⟩ := List.mem_map.mp hm
  obtain ⟨k, hk⟩ := nd _ hp
  simp only at hk he
  subst hk
  have hpw : I.pw (eval I ρ b) (eval I ρ (.num (k : ℚ))) = eval I ρ b ^ k := by
    have := pw_nat I (eval I ρ b) k
    simpa [eval] using this
  rw [hpw] at he
  have hb0 : eval I ρ b = 0 := by by_contra h'; exact pow_ne_zero _ h' he
  have hb : b ≠ .num 1 := by rintro rfl; simp [eval] at hb0
  have hx : 0 < (commonDen l).ex b := by
    rw [Nat.pos_iff_ne_zero]
    intro hz
    have := split_spec s1 cd hb
    rw [hz] at this
    exact (En_eq_nil.mp this) _ hp rfl
  obtain ⟨p, hp, hpx⟩ := commonDen_attained h hb hx
  exact base_ne I ρ (h.simple p hp) (h.clean _ (h.dvd p hp)) (hne p hp) hb hpx hb0

/-! ### The recursion -/

/-- The two laws of powers that the code uses: the reciprocal, and the sum of positive exponents. -/
structure PowLaws : Prop where
  neg : ∀ (a : K) (q : ℚ), 0 ≤ q → I.pw a ((-q : ℚ) : K) = (I.pw a (q : K))⁻¹
  add : ∀ (a : K) (p q : ℚ), 0 < p → 0 < q → I.pw a (p : K) * I.pw a (q : K) = I.pw a ((p + q : ℚ) : K)

/-- Numeric exponents are positive. -/
def PosD (d : Den) : Prop := ∀ p ∈ d.rest, ∀ c, p.2 = .num c → 0 < c

theorem posD_one : PosD Den.one := by simp [PosD, Den.one]

theorem addExp_spec (hI : PowLaws I) (ρ : String → K) {b : Expr} {a : ℚ} (ha : 0 < a) {l m : List (Expr × Expr)}
    (hl : ∀ p ∈ l, ∀ c, p.2 = .num c → 0 < c) (h : addExp b a l = some m) :
    powVal I ρ m = powVal I ρ l * I.pw (eval I ρ b) (a : K) ∧ ∀ p ∈ m, ∀ c, p.2 = .num c → 0 < c := by
  induction l generalizing m with
  | nil => simp [addExp] at h
  | cons p l ih =>
    have hl' : ∀ p ∈ l, ∀ c, p.2 = .num c → 0 < c := fun p hp => hl p (by simp [hp])
    have rest : (addExp b a l).map (fun l => p :: l) = some m →
        powVal I ρ m = powVal I ρ (p :: l) * I.pw (eval I ρ b) (a : K) ∧ ∀ p ∈ m, ∀ c, p.2 = .num c → 0 < c := by
      intro h
      obtain ⟨m', h', rfl⟩ := Option.map_eq_some_iff.mp h
      obtain ⟨i1, i2⟩ := ih hl' h'
      refine ⟨?_, ?_⟩
      · have e1 : ∀ l, powVal I ρ (p :: l) = I.pw (eval I ρ p.1) (eval I ρ p.2) * powVal I ρ l := fun l => by simp [powVal]
        rw [e1, e1, i1]; ring
      · intro r hr
        rcases List.mem_cons.mp hr with rfl | hr
        · exact hl _ (by simp)
        · exact i2 r hr
    unfold addExp at h
    split at h
    · rename_i c hc
      by_cases hp : p.1 = b
      · rw [if_pos hp] at h
        have hc0 : 0 < c := hl p (by simp) c hc
        have hne : ¬ c + a = 0 := by linarith [hc0, ha]
        rw [if_neg hne] at h
        cases h
        refine ⟨?_, ?_⟩
        · simp only [powVal, List.map_cons, List.prod_cons]
          rw [hp, hc]
          simp only [eval]
          rw [← hI.add _ c a hc0 ha]; ring
        · intro r hr d hd
          rcases List.mem_cons.mp hr with rfl | hr
          · simp only [Expr.num.injEq] at hd
            rw [← hd]; linarith
          · exact hl' r hr d hd
      · rw [if_neg hp] at h
        exact rest h
    · exact rest h

theorem mulPow_spec (hI : PowLaws I) (ρ : String → K) {d : Den} (hd : PosD d) (b : Expr) {a : ℚ} (ha : 0 ≤ a) :
    (d.mulPow b (.num a)).val I ρ = d.val I ρ * I.pw (eval I ρ b) (a : K) ∧ PosD (d.mulPow b (.num a)) := by
  have h0 : a = 0 → I.pw (eval I ρ b) (a : K) = 1 := by
    rintro rfl
    have := pw_nat I (eval I ρ b) 0
    simpa using this
  have gen : 0 < a → (Den.mk d.coef ((addExp b a d.rest).getD (d.rest ++ [(b, .num a)]))).val I ρ = d.val I ρ * I.pw (eval I ρ b) (a : K) ∧
      PosD (Den.mk d.coef ((addExp b a d.rest).getD (d.rest ++ [(b, .num a)]))) := by
    intro ha
    cases hx : addExp b a d.rest with
    | none =>
      refine ⟨?_, ?_⟩
      · simp only [Den.val, Option.getD_none, powVal_append]
        rw [show powVal I ρ [(b, Expr.num a)] = I.pw (eval I ρ b) (a : K) by simp [powVal, eval]]
        ring
      · intro p hp c hc
        simp only [Option.getD_none, List.mem_append, List.mem_singleton] at hp
        rcases hp with hp | rfl
        · exact hd p hp c hc
        · simp only [Expr.num.injEq] at hc; rw [← hc]; exact ha
    | some m =>
      obtain ⟨h1, h2⟩ := addExp_spec I hI ρ ha hd hx
      refine ⟨?_, h2⟩
      simp only [Den.val, Option.getD_some, h1]; ring
  by_cases hn : isNumB b = true
  · cases b <;> simp [isNumB] at hn
    rename_i q
    by_cases hq : q = 1 ∨ a = 0
    · have he : d.mulPow (.num q) (.num a) = d := by simp [Den.mulPow, hq]
      rw [he]
      refine ⟨?_, hd⟩
      rcases hq with rfl | rfl
      · simp [eval, I.one_pw]
      · rw [h0 rfl, mul_one]
    · have ha' : 0 < a := lt_of_le_of_ne ha (fun h => hq (.inr h.symm))
      by_cases hc : q.den = 1 ∧ 0 < q ∧ isPosInt (.num a) = true
      · have he : d.mulPow (.num q) (.num a) = ⟨d.coef * q.num.toNat ^ a.num.toNat, d.rest⟩ := by
          simp only [Den.mulPow]
          rw [if_neg hq, if_pos hc]
        rw [he]
        refine ⟨?_, hd⟩
        obtain ⟨k, hk, rfl⟩ := posInt_num.mp hc.2.2
        have hqn : (q : K) = ((q.num.toNat : ℕ) : K) := by
          rw [ratCast_of_den_one hc.1]
          have : ((q.num.toNat : ℕ) : ℤ) = q.num := Int.toNat_of_nonneg (Rat.num_nonneg.mpr hc.2.1.le)
          conv_lhs => rw [← this]
          exact Int.cast_natCast _
        simp only [Den.val, eval, Rat.cast_natCast, pw_nat, Nat.cast_mul, Nat.cast_pow]
        rw [hqn]
        simp
        ring
      · have he : d.mulPow (.num q) (.num a) = ⟨d.coef, (addExp (.num q) a d.rest).getD (d.rest ++ [(.num q, .num a)])⟩ := by
          simp only [Den.mulPow]
          rw [if_neg hq, if_neg hc]
        rw [he]
        exact gen ha'
  · have hn : isNumB b = false := by simpa using hn
    by_cases hz : a = 0
    · have he : d.mulPow b (.num a) = d := by
        cases b <;> simp [isNumB] at hn <;> simp [Den.mulPow, hz]
      rw [he, h0 hz, mul_one]
      exact ⟨rfl, hd⟩
    · have he : d.mulPow b (.num a) = ⟨d.coef, (addExp b a d.rest).getD (d.rest ++ [(b, .num a)])⟩ := by
        cases b <;> simp [isNumB] at hn <;> simp [Den.mulPow, hz]
      rw [he]
      exact gen (lt_of_le_of_ne ha (fun h => hz h.symm))

theorem findFactor_spec (hI : PowLaws I) (ρ : String → K) (e : Expr) {st : Expr × Den} (hd : PosD st.2) :
    eval I ρ (findFactor e st).1 / (findFactor e st).2.val I ρ = eval I ρ st.1 / st.2.val I ρ * eval I ρ e ∧ PosD (findFactor e st).2 := by
  have gen : eval I ρ (mulE st.1 e) / st.2.val I ρ = eval I ρ st.1 / st.2.val I ρ * eval I ρ e := by
    rw [eval_mulE]; ring
  unfold findFactor
  split
  · rename_i b q
    by_cases hq : q ≤ 0
    · rw [if_pos hq]
      obtain ⟨h1, h2⟩ := mulPow_spec I hI ρ hd b (a := -q) (by linarith)
      refine ⟨?_, h2⟩
      dsimp only
      rw [h1]
      have := hI.neg (eval I ρ b) (-q) (by linarith)
      rw [neg_neg] at this
      simp only [eval]
      rw [this, div_mul_eq_div_div, div_eq_mul_inv]
    · rw [if_neg hq]; exact ⟨gen, hd⟩
  · rename_i q
    obtain ⟨h1, h2⟩ := mulPow_spec I hI ρ hd (.num (q.den : ℚ)) (a := 1) (by norm_num)
    refine ⟨?_, h2⟩
    dsimp only
    rw [h1, eval_mulE]
    simp only [eval, Rat.cast_one, pw_one', Rat.cast_intCast, Rat.cast_natCast]
    rw [Rat.cast_def q, mul_div_mul_comm]
  · exact ⟨gen, hd⟩

theorem findTerm_spec (hI : PowLaws I) (ρ : String → K) (e : Expr) {st : Expr × Den} (hd : PosD st.2) :
    eval I ρ (findTerm e st).1 / (findTerm e st).2.val I ρ = eval I ρ st.1 / st.2.val I ρ * eval I ρ e ∧ PosD (findTerm e st).2 := by
  unfold findTerm
  split
  · rename_i l
    simp only [eval]
    induction l with
    | nil => exact ⟨by simp, hd⟩
    | cons a l ih =>
      rw [List.foldr_cons]
      obtain ⟨h1, h2⟩ := findFactor_spec I hI ρ a ih.2
      refine ⟨?_, h2⟩
      rw [h1, ih.1, List.map_cons, List.prod_cons]; ring
  · exact findFactor_spec I hI ρ e hd

/-- The specification of GiNaC's operations. -/
structure OracleOk (O : Ops) : Prop where
  quot : ∀ n d (ρ : String → K), eval I ρ (O.quot n d) = eval I ρ n / d.val I ρ
  power : ∀ n d m f (ρ : String → K), eval I ρ (O.power n d m f) = I.pw (eval I ρ n / d.val I ρ) (eval I ρ m / f.val I ρ)

/-- The hypotheses of the theorem on one expression: for sums, on the denominators of the summands. -/
def FineStep (rec : Expr → Option (Expr × Den)) (Fine : Expr → Prop) (ρ : String → K) : Expr → Prop
  | .add l => (∀ a ∈ l, Fine a) ∧ ∀ rs, mapRec rec l = some rs → (∃ M, GoodSum M rs) ∧ ∀ p ∈ rs, p.2.val I ρ ≠ 0
  | .pow b x => Fine b ∧ Fine x
  | .mul l => ∀ b x, Expr.pow b x ∈ l → Fine (.pow b x)
  | _ => True

/-- At all levels of the recursion. -/
def FineD (O : Ops) (ρ : String → K) : ℕ → Expr → Prop
  | 0, _ => True
  | fuel + 1, e => FineStep I (numDen O fuel) (FineD O ρ fuel) ρ e

theorem simple_pos {d : Den} (h : Simple d) : PosD d := by
  rintro ⟨b, x⟩ hp c hc
  simp only at hc
  subst hc
  obtain ⟨k, hk⟩ := h.once b
  have hm : Expr.num c ∈ En b d.rest := List.mem_map.mpr ⟨_, List.mem_filter.mpr ⟨hp, by simp⟩, rfl⟩
  rw [hk] at hm
  cases k with
  | zero => simp [exl] at hm
  | succ k =>
    rw [exl, List.mem_singleton] at hm
    rw [Expr.num.inj hm]; positivity

theorem mapRec_spec {rec : Expr → Option (Expr × Den)} {P : Expr → Expr × Den → Prop} {l : List Expr} {rs}
    (h : mapRec rec l = some rs) (hP : ∀ a ∈ l, ∀ r, rec a = some r → P a r) : List.Forall₂ P l rs := by
  induction l generalizing rs with
  | nil => simp [mapRec] at h; subst h; exact .nil
  | cons a l ih =>
    rw [mapRec] at h
    obtain ⟨r, h1, h⟩ := Option.bind_eq_some_iff.mp h
    obtain ⟨m, h2, rfl⟩ := Option.map_eq_some_iff.mp h
    exact .cons (hP a (by simp) r h1) (ih h2 fun a ha => hP a (by simp [ha]))

/-- C51 (partial): numerator divided by denominator is the expression, at every level of the recursion. -/
theorem C51_num_den_partial (hI : PowLaws I) {O : Ops} (hO : OracleOk I O) (ρ : String → K) (fuel : ℕ) {e : Expr} {r : Expr × Den}
    (hf : FineD I O ρ fuel e) (h : numDen O fuel e = some r) : eval I ρ r.1 / r.2.val I ρ = eval I ρ e ∧ PosD r.2 := by
  induction fuel generalizing e r with
  | zero => simp [numDen] at h
  | succ fuel ih =>
    rw [numDen] at h
    have hf' : FineStep I (numDen O fuel) (FineD I O ρ fuel) ρ e := hf
    have hv1 : eval I ρ (.num 1) / Den.one.val I ρ = 1 := by simp [eval, Den.val, Den.one, powVal]
    have leaf : ∀ e, eval I ρ (findTerm e (.num 1, .one)).1 / (findTerm e (.num 1, .one)).2.val I ρ = eval I ρ e ∧
        PosD (findTerm e (.num 1, .one)).2 := by
      intro e
      obtain ⟨h1, h2⟩ := findTerm_spec I hI ρ e (st := (.num 1, .one)) posD_one
      refine ⟨?_, h2⟩
      rw [h1]
      dsimp only
      rw [hv1, one_mul]
    unfold ndStep at h
    split at h
    · rename_i l
      obtain ⟨rs, h1, rfl⟩ := Option.map_eq_some_iff.mp h
      obtain ⟨g1, g2⟩ := hf'
      obtain ⟨⟨M, hM⟩, hne⟩ := g2 rs h1
      have hF := mapRec_spec (P := fun a r => eval I ρ r.1 / r.2.val I ρ = eval I ρ a) h1 fun a ha r hr => (ih (g1 a ha) hr).1
      refine ⟨?_, simple_pos (commonDen_spec hM).1⟩
      dsimp only
      rw [C51_sum_partial I hM ρ hne, mul_div_assoc, div_self (commonDen_ne I hM ρ hne), mul_one]
      simp only [eval]
      congr 1
      clear h h1 hM hne hf g2
      induction hF with
      | nil => rfl
      | cons h _ ih => simp only [List.map_cons, h]; rw [ih fun a ha => g1 a (by simp [ha])]
    · rename_i b x
      obtain ⟨rb, h1, h⟩ := Option.bind_eq_some_iff.mp h
      obtain ⟨rx, h2, rfl⟩ := Option.map_eq_some_iff.mp h
      obtain ⟨g1, g2⟩ := hf'
      obtain ⟨l1, l2⟩ := leaf (O.power rb.1 rb.2 rx.1 rx.2)
      refine ⟨?_, l2⟩
      rw [l1, hO.power, (ih g1 h1).1, (ih g2 h2).1]
      simp only [eval]
    · rename_i l
      have key : ∀ (m : List Expr) (st : Expr × Den), (∀ a ∈ m, a ∈ l) →
          m.foldr (fun a acc => acc.bind fun st => mulStep O (numDen O fuel) a st) (some (.num 1, .one)) = some st →
          eval I ρ st.1 / st.2.val I ρ = (m.map fun a => eval I ρ a).prod ∧ PosD st.2 := by
        intro m
        induction m with
        | nil => intro st _ h; simp only [List.foldr_nil] at h; cases h; exact ⟨by rw [hv1]; rfl, posD_one⟩
        | cons a m ihm =>
          intro st hm h
          rw [List.foldr_cons] at h
          obtain ⟨st', h1, h⟩ := Option.bind_eq_some_iff.mp h
          obtain ⟨i1, i2⟩ := ihm st' (fun a ha => hm a (by simp [ha])) h1
          unfold mulStep at h
          split at h
          · obtain ⟨r, h2, rfl⟩ := Option.map_eq_some_iff.mp h
            obtain ⟨t1, t2⟩ := findTerm_spec I hI ρ (O.quot r.1 r.2) i2
            refine ⟨?_, t2⟩
            rw [t1, i1, hO.quot, (ih (hf' _ _ (hm _ (by simp))) h2).1, List.map_cons, List.prod_cons, mul_comm]
          · cases h
            obtain ⟨t1, t2⟩ := findTerm_spec I hI ρ a i2
            refine ⟨?_, t2⟩
            rw [t1, i1, List.map_cons, List.prod_cons, mul_comm]
      simp only [eval]
      exact key l r (fun a ha => ha) h
    · cases h
      exact leaf e

/-- C51 (partial): `numerator` divided by `denominator` is the expression. -/
theorem C51_numerator_denominator_partial (hI : PowLaws I) {O : Ops} (hO : OracleOk I O) {F : Factorize.Ops} (hF : OpsOk I F) (ρ : String → K)
    (fuel : ℕ) {e : Expr} {r : Expr × Expr} (hf : FineD I O ρ fuel (distribute e))
    (hn : ∀ s, numDen O fuel (distribute e) = some s → Factorize.Fine F fuel s.1)
    (h : numeratorDenominator O F fuel e = some r) : eval I ρ r.1 / eval I ρ r.2 = eval I ρ e := by
  unfold numeratorDenominator at h
  obtain ⟨s, h1, h⟩ := Option.bind_eq_some_iff.mp h
  obtain ⟨t, h2, rfl⟩ := Option.map_eq_some_iff.mp h
  have k1 := (C51_num_den_partial I hI hO ρ fuel hf h1).1
  have k2 := C50_no_ratio_partial I F hF fuel (hn s h1) h2 ρ
  dsimp only
  rw [eval_mulE, eval_denExpr, k2, k1, C19_distribute_value]

/-- C51 (partial): the single fraction, given that GiNaC's numerator divided by its denominator is the expression. -/
theorem C51_single_fraction_partial {F : Factorize.Ops} (hF : OpsOk I F) (ρ : String → K) (fuel : ℕ) {e r : Expr}
    (hnd : eval I ρ (F.numer (distribute e)) / eval I ρ (F.denom (distribute e)) = eval I ρ (distribute e))
    (hn : Factorize.Fine F fuel (F.numer (distribute e))) (h : singleFraction F fuel e = some r) : eval I ρ r = eval I ρ e := by
  unfold singleFraction at h
  obtain ⟨t, h2, rfl⟩ := Option.map_eq_some_iff.mp h
  have k2 := C50_no_ratio_partial I F hF fuel hn h2 ρ
  rw [eval_quo, eval_mulE, k2, hnd, C19_distribute_value]

/-! ### The hypotheses are met -/

theorem powLaws_complex (ξ : ℂ → ℂ) : PowLaws (OrderRed.complexInterp ξ) where
  neg := fun a q _ => by
    change a ^ (((-q : ℚ) : ℂ)) = (a ^ (q : ℂ))⁻¹
    rw [← Complex.cpow_neg]; push_cast; rfl
  add := fun a p q hp hq => by
    change a ^ (p : ℂ) * a ^ (q : ℂ) = a ^ (((p + q : ℚ)) : ℂ)
    by_cases ha : a = 0
    · subst ha
      have h1 : (p : ℂ) ≠ 0 := by exact_mod_cast hp.ne'
      have h2 : ((p + q : ℚ) : ℂ) ≠ 0 := by exact_mod_cast (add_pos hp hq).ne'
      rw [Complex.zero_cpow h1, Complex.zero_cpow h2, zero_mul]
    · rw [← Complex.cpow_add _ _ ha]; push_cast; rfl

/-- The denominators of `a/2 + b/(3 n)`. -/
example : GoodSum 6 [(.sym "a", ⟨2, []⟩), (.sym "b", ⟨3, [(.sym "n", .num 1)]⟩)] where
  simple := by
    intro p hp
    simp only [List.mem_cons, List.not_mem_nil, or_false] at hp
    rcases hp with rfl | rfl
    · exact ⟨by norm_num, fun b => ⟨0, rfl⟩, by simp⟩
    · refine ⟨by norm_num, fun b => ?_, by simp [isNumB]⟩
      by_cases h : Expr.sym "n" = b
      · subst h; exact ⟨1, by simp [En, exl]⟩
      · exact ⟨0, by simp [En, exl, h]⟩
  dvd := by
    intro p hp
    simp only [List.mem_cons, List.not_mem_nil, or_false] at hp
    rcases hp with rfl | rfl <;> norm_num
  clean := factorable_of_lt (by norm_num) (by norm_num)

/-- The hypotheses of `C51_num_den_partial` hold for `a/2 + b/3`. -/
example (O : Ops) (ρ : String → K) : FineD I O ρ 2 (.add [.mul [.num (1 / 2), .sym "a"], .mul [.num (1 / 3), .sym "b"]]) ∧
    ∃ r, numDen O 2 (.add [.mul [.num (1 / 2), .sym "a"], .mul [.num (1 / 3), .sym "b"]]) = some r := by
  have hden1 : ((1 : ℚ) / 2).den = 2 := by norm_num
  have hden2 : ((1 : ℚ) / 3).den = 3 := by norm_num
  have m1 : (Den.one.mulPow (.num ((2 : ℕ) : ℚ)) (.num 1)) = ⟨2, []⟩ := by
    have := mulPow_nat Den.one (m := 2) (k := 1) (by norm_num) (by norm_num)
    simpa [Den.one] using this
  have m2 : (Den.one.mulPow (.num ((3 : ℕ) : ℚ)) (.num 1)) = ⟨3, []⟩ := by
    have := mulPow_nat Den.one (m := 3) (k := 1) (by norm_num) (by norm_num)
    simpa [Den.one] using this
  have hA : numDen O 1 (.mul [.num (1 / 2), .sym "a"]) = some (mulE (mulE (.num 1) (.sym "a")) (.num (((1 : ℚ) / 2).num : ℚ)), ⟨2, []⟩) := by
    simp only [numDen, ndStep, List.foldr_cons, List.foldr_nil, mulStep, findTerm, findFactor, Option.bind_some, hden1, m1]
  have hB : numDen O 1 (.mul [.num (1 / 3), .sym "b"]) = some (mulE (mulE (.num 1) (.sym "b")) (.num (((1 : ℚ) / 3).num : ℚ)), ⟨3, []⟩) := by
    simp only [numDen, ndStep, List.foldr_cons, List.foldr_nil, mulStep, findTerm, findFactor, Option.bind_some, hden2, m2]
  refine ⟨⟨?_, ?_⟩, ?_⟩
  · intro a ha
    simp only [List.mem_cons, List.not_mem_nil, or_false] at ha
    rcases ha with rfl | rfl <;> (intro b x hx; simp at hx)
  · intro rs hrs
    simp only [mapRec, hA, hB, Option.bind_some, Option.map_some, Option.some.injEq] at hrs
    subst hrs
    refine ⟨⟨6, ?_, ?_, factorable_of_lt (by norm_num) (by norm_num)⟩, ?_⟩ <;> intro p hp <;>
      simp only [List.mem_cons, List.not_mem_nil, or_false] at hp <;> rcases hp with rfl | rfl
    · exact ⟨by norm_num, fun b => ⟨0, rfl⟩, by simp⟩
    · exact ⟨by norm_num, fun b => ⟨0, rfl⟩, by simp⟩
    · norm_num
    · norm_num
    · simp [Den.val, powVal]
    · simp [Den.val, powVal]
  · rw [numDen, ndStep]
    simp only [mapRec, hA, hB, Option.bind_some, Option.map_some]
    exact ⟨_, rfl⟩

/-! ### Where the code is wrong -/

theorem factorLoop_none (t i m : ℕ) (acc : List (ℕ × ℕ)) (h : ∀ j, i ≤ j → j < t → m % j ≠ 0) : factorLoop t i m acc = (m, acc) := by
  fun_induction factorLoop t i m acc with
  | case1 i m acc hc r ih =>
    have hs : stripFactor i m 0 = (m, 0) := by
      rw [stripFactor, dif_neg]
      intro h'; exact h i le_rfl hc.1 h'.2.2
    have hr : r = (m, 0) := hs
    rw [hr] at ih ⊢
    simp only [lt_irrefl, if_false] at ih ⊢
    exact ih fun j hj hj' => h j (by omega) hj'
  | case2 => rfl

theorem partialFactor_big {m : ℕ} (h1 : 1 < m) (h : ∀ j, 2 ≤ j → j < 100 → m % j ≠ 0) : partialFactor (m : ℤ) = [(m, 1)] := by
  have hs : stripFactor 2 m 0 = (m, 0) := by
    rw [stripFactor, dif_neg]
    intro h'; exact h 2 le_rfl (by norm_num) h'.2.2
  have hf := factorLoop_none 100 3 m [] fun j hj hj' => h j (by omega) hj'
  simp [partialFactor, hs, hf, h1]

theorem split_big {m : ℕ} (h1 : 1 < m) (h : ∀ j, 2 ≤ j → j < 100 → m % j ≠ 0) : (⟨m, []⟩ : Den).split = [(.num m, .num 1)] := by
  have : ¬ ((m : ℤ) = 1) := by omega
  have h0 : ¬ ((m : ℤ) < 0) := by omega
  simp [Den.split, splitInt, partialFactor_big h1 h, this, h0]

theorem split_one : Den.one.split = [(.num 1, .num 1), (.num 1, .num 1)] := by
  simp [Den.split, Den.one, splitInt, C04_partialFactor_unit]

theorem no101 : ∀ j, 2 ≤ j → j < 100 → 101 % j ≠ 0 := by decide
theorem no103 : ∀ j, 2 ≤ j → j < 100 → 103 % j ≠ 0 := by decide
theorem no10403 : ∀ j, 2 ≤ j → j < 100 → 10403 % j ≠ 0 := by decide

/-- `a/101 + b/103`. -/
def ex101 : Expr := .add [.mul [.num (1 / 101), .sym "a"], .mul [.num (1 / 103), .sym "b"]]

/-- The common denominator `10403 = 101 · 103` is not factored, so the numerator is `10403 a + 10403 b`: the result is `a + b`. -/
theorem C51_large_primes_refuted (O : Ops) (ρ : String → K) :
    ∃ r, numDen O 2 ex101 = some r ∧ eval I ρ r.1 / r.2.val I ρ = ρ "a" + ρ "b" ∧ eval I ρ ex101 = ρ "a" / 101 + ρ "b" / 103 := by
  have hden1 : ((1 : ℚ) / 101).den = 101 := by norm_num
  have hnum1 : ((1 : ℚ) / 101).num = 1 := by norm_num
  have hden2 : ((1 : ℚ) / 103).den = 103 := by norm_num
  have hnum2 : ((1 : ℚ) / 103).num = 1 := by norm_num
  have m1 : (Den.one.mulPow (.num ((101 : ℕ) : ℚ)) (.num 1)) = ⟨101, []⟩ := by
    have := mulPow_nat Den.one (m := 101) (k := 1) (by norm_num) (by norm_num)
    simpa [Den.one] using this
  have m2 : (Den.one.mulPow (.num ((103 : ℕ) : ℚ)) (.num 1)) = ⟨103, []⟩ := by
    have := mulPow_nat Den.one (m := 103) (k := 1) (by norm_num) (by norm_num)
    simpa [Den.one] using this
  have hA : numDen O 1 (.mul [.num (1 / 101), .sym "a"]) = some (mulE (mulE (.num 1) (.sym "a")) (.num ((1 : ℤ) : ℚ)), ⟨101, []⟩) := by
    simp only [numDen, ndStep, List.foldr_cons, List.foldr_nil, mulStep, findTerm, findFactor, Option.bind_some, hden1, hnum1, m1]
  have hB : numDen O 1 (.mul [.num (1 / 103), .sym "b"]) = some (mulE (mulE (.num 1) (.sym "b")) (.num ((1 : ℤ) : ℚ)), ⟨103, []⟩) := by
    simp only [numDen, ndStep, List.foldr_cons, List.foldr_nil, mulStep, findTerm, findFactor, Option.bind_some, hden2, hnum2, m2]
  have s1 := split_big (m := 101) (by norm_num) no101
  have s2 := split_big (m := 103) (by norm_num) no103
  have s3 := split_big (m := 10403) (by norm_num) no10403
  have t1 : takeCommon Den.one ⟨103, []⟩ = ⟨103, []⟩ := by
    have : takeList [(Expr.num 1, Expr.num 1), (.num 1, .num 1)] [(.num ((103 : ℕ) : ℚ), .num 1)] =
        [(.num ((103 : ℕ) : ℚ), .num 1), (.num 1, .num 1), (.num 1, .num 1)] := by
      simp [takeList, takeStep, matchBase, isPosInt]
    rw [takeCommon, split_one, s2, this]
    simp only [denOf, List.foldr_cons, List.foldr_nil, mulPow_one, m2]
  have t2 : takeCommon ⟨103, []⟩ ⟨101, []⟩ = ⟨10403, []⟩ := by
    have : takeList [(.num ((103 : ℕ) : ℚ), .num 1)] [(.num ((101 : ℕ) : ℚ), .num 1)] =
        [(.num ((101 : ℕ) : ℚ), .num 1), (.num ((103 : ℕ) : ℚ), .num 1)] := by
      simp [takeList, takeStep, matchBase, isPosInt]
    rw [takeCommon, s2, s1, this]
    simp only [denOf, List.foldr_cons, List.foldr_nil, m2]
    have := mulPow_nat ⟨103, []⟩ (m := 101) (k := 1) (by norm_num) (by norm_num)
    simpa using this
  have f1 : eval I ρ (factorFor ⟨10403, []⟩ ⟨101, []⟩) = 10403 := by
    have : numFactor [(Expr.num ((101 : ℕ) : ℚ), Expr.num 1)] (.num ((10403 : ℕ) : ℚ), .num 1) = powE (.num ((10403 : ℕ) : ℚ)) (.num 1) := by
      simp [numFactor]
    rw [factorFor, s3, s1, List.foldr_cons, List.foldr_nil, this, eval_mulE, eval_powE]
    simp [eval, pw_one']
  have f2 : eval I ρ (factorFor ⟨10403, []⟩ ⟨103, []⟩) = 10403 := by
    have : numFactor [(Expr.num ((103 : ℕ) : ℚ), Expr.num 1)] (.num ((10403 : ℕ) : ℚ), .num 1) = powE (.num ((10403 : ℕ) : ℚ)) (.num 1) := by
      simp [numFactor]
    rw [factorFor, s3, s2, List.foldr_cons, List.foldr_nil, this, eval_mulE, eval_powE]
    simp [eval, pw_one']
  have hrs : mapRec (numDen O 1) [.mul [.num (1 / 101), .sym "a"], .mul [.num (1 / 103), .sym "b"]] =
      some [(mulE (mulE (.num 1) (.sym "a")) (.num ((1 : ℤ) : ℚ)), ⟨101, []⟩), (mulE (mulE (.num 1) (.sym "b")) (.num ((1 : ℤ) : ℚ)), ⟨103, []⟩)] := by
    simp only [mapRec, hA, hB, Option.bind_some, Option.map_some]
  have hcd : commonDen [(mulE (mulE (.num 1) (.sym "a")) (.num ((1 : ℤ) : ℚ)), ⟨101, []⟩), (mulE (mulE (.num 1) (.sym "b")) (.num ((1 : ℤ) : ℚ)), ⟨103, []⟩)] =
      ⟨10403, []⟩ := by
    simp only [commonDen, List.foldr_cons, List.foldr_nil, t1, t2]
  refine ⟨_, by rw [ex101, numDen, ndStep, hrs]; rfl, ?_, ?_⟩
  · dsimp only
    rw [hcd, findNumerator]
    simp only [List.foldr_cons, List.foldr_nil, eval_addE, eval_mulE]
    rw [if_neg (by simp), if_neg (by simp), f1, f2]
    simp [eval, Den.val, powVal]
    field_simp
    ring
  · simp [ex101, eval]
    ring

/-- `n^(-1/2) + n^(-1)`. -/
def exRoot : Expr := .add [.pow (.sym "n") (.num (-1 / 2)), .pow (.sym "n") (.num (-1))]

/-- With the exponents `1/2` and `1` the common denominator is `n^(3/2)`, and so is what is left of it for both numerators: the
result is `2` instead of `3/4` for `n = 4`. -/
theorem C51_roots_refuted (ξ : ℝ → ℝ) {O : Ops} (h1 : O.power (.sym "n") .one (.num (-1)) ⟨2, []⟩ = .pow (.sym "n") (.num (-1 / 2)))
    (h2 : O.power (.sym "n") .one (.num (-1)) .one = .pow (.sym "n") (.num (-1))) (ρ : String → ℝ) (hρ : ρ "n" = 4) :
    ∃ r, numDen O 3 exRoot = some r ∧ eval (realInterp ξ) ρ r.1 / r.2.val (realInterp ξ) ρ = 2 ∧ eval (realInterp ξ) ρ exRoot = 3 / 4 := by
  have hone : Den.one.mulPow (.num 1) (.num 1) = .one := mulPow_one _ _
  have hn : numDen O 1 (.sym "n") = some (.sym "n", .one) := by
    simp [numDen, ndStep, findTerm, findFactor, mulE]
  have hx1 : numDen O 1 (.num (-1 / 2)) = some (.num (-1), ⟨2, []⟩) := by
    have hd : ((-1 : ℚ) / 2).den = 2 := by norm_num
    have hnu : ((-1 : ℚ) / 2).num = -1 := by norm_num
    have := mulPow_nat Den.one (m := 2) (k := 1) (by norm_num) (by norm_num)
    simp only [numDen, ndStep, findTerm, findFactor, hd, hnu]
    simp only [Nat.cast_ofNat, Nat.cast_one] at this ⊢
    rw [this]
    simp [mulE, Den.one]
  have hx2 : numDen O 1 (.num (-1)) = some (.num (-1), .one) := by
    have hd : (-1 : ℚ).den = 1 := by norm_num
    have hnu : (-1 : ℚ).num = -1 := by norm_num
    simp only [numDen, ndStep, findTerm, findFactor, hd, hnu, Nat.cast_one, mulPow_one]
    simp [mulE]
  have hp1 : numDen O 2 (.pow (.sym "n") (.num (-1 / 2))) = some (.num 1, ⟨1, [(.sym "n", .num (1 / 2))]⟩) := by
    rw [numDen, ndStep, hn, hx1]
    simp only [Option.bind_some, Option.map_some, h1, findTerm, findFactor]
    rw [if_pos (by norm_num)]
    have : -((-1 : ℚ) / 2) = 1 / 2 := by norm_num
    rw [this]
    simp [Den.mulPow, addExp, Den.one]
  have hp2 : numDen O 2 (.pow (.sym "n") (.num (-1))) = some (.num 1, ⟨1, [(.sym "n", .num 1)]⟩) := by
    rw [numDen, ndStep, hn, hx2]
    simp only [Option.bind_some, Option.map_some, h2, findTerm, findFactor]
    rw [if_pos (by norm_num)]
    simp [Den.mulPow, addExp, Den.one]
  have hrs : mapRec (numDen O 2) [.pow (.sym "n") (.num (-1 / 2)), .pow (.sym "n") (.num (-1))] =
      some [(.num 1, ⟨1, [(.sym "n", .num (1 / 2))]⟩), (.num 1, ⟨1, [(.sym "n", .num 1)]⟩)] := by
    simp only [mapRec, hp1, hp2, Option.bind_some, Option.map_some]
  have hs : ∀ q, (⟨1, [(.sym "n", .num q)]⟩ : Den).split = [(.sym "n", .num q)] := fun q => by simp [Den.split]
  have t1 : takeCommon Den.one ⟨1, [(.sym "n", .num 1)]⟩ = ⟨1, [(.sym "n", .num 1)]⟩ := by
    have : takeList [(Expr.num 1, Expr.num 1), (.num 1, .num 1)] [(.sym "n", .num 1)] =
        [(.sym "n", .num 1), (.num 1, .num 1), (.num 1, .num 1)] := by
      simp [takeList, takeStep, matchBase, isPosInt]
    rw [takeCommon, split_one, hs, this]
    simp only [denOf, List.foldr_cons, List.foldr_nil, mulPow_one]
    simp [Den.mulPow, addExp, Den.one]
  have t2 : takeCommon ⟨1, [(.sym "n", .num 1)]⟩ ⟨1, [(.sym "n", .num (1 / 2))]⟩ = ⟨1, [(.sym "n", .num (3 / 2))]⟩ := by
    have hnp : isPosInt (.num (1 / 2)) = false := by
      rw [Bool.eq_false_iff]
      intro h
      obtain ⟨k, hk, he⟩ := posInt_num.mp h
      have : (1 : ℚ) = 2 * k := by rw [← he]; norm_num
      have : 1 = 2 * k := by exact_mod_cast this
      omega
    have : takeList [(Expr.sym "n", Expr.num 1)] [(.sym "n", .num (1 / 2))] = [(.sym "n", .num (1 / 2)), (.sym "n", .num 1)] := by
      have h1 : isPosInt (.num 1) = true := by simp [isPosInt]
      have hl : larger (.num 1) (.num (1 / 2)) = none := by
        simp only [larger, h1, hnp, Bool.and_false, Bool.false_eq_true, if_false]
      have hm : matchBase (.sym "n") (.num 1) [(.sym "n", .num (1 / 2))] = some ([(.sym "n", .num (1 / 2)), (.sym "n", .num 1)], [(.sym "n", .num 0)]) := by
        simp only [matchBase, if_true, hl]
      simp only [takeList, List.foldr_cons, List.foldr_nil, takeStep, h1, if_true, List.reverse_cons, List.reverse_nil, List.nil_append, hm,
        List.append_nil, List.foldl_cons, List.foldl_nil]
    rw [takeCommon, hs, hs, this]
    have e : (1 : ℚ) + 1 / 2 = 3 / 2 := by norm_num
    have e' : ¬ (3 / 2 : ℚ) = 0 := by norm_num
    simp only [denOf, List.foldr_cons, List.foldr_nil]
    have hh : ¬ (1 / 2 : ℚ) = 0 := by norm_num
    have i1 : Den.one.mulPow (.sym "n") (.num 1) = ⟨1, [(.sym "n", .num 1)]⟩ := by simp [Den.mulPow, addExp, Den.one]
    rw [i1]
    simp only [Den.mulPow, addExp, if_neg hh, e, if_neg e', if_true, Option.getD_some]
  have hcd : commonDen [(.num 1, ⟨1, [(.sym "n", .num (1 / 2))]⟩), (.num 1, ⟨1, [(.sym "n", .num 1)]⟩)] = ⟨1, [(.sym "n", .num (3 / 2))]⟩ := by
    simp only [commonDen, List.foldr_cons, List.foldr_nil, t1, t2]
  have hff : ∀ q : ℚ, q = 1 / 2 ∨ q = 1 → eval (realInterp ξ) ρ (factorFor ⟨1, [(.sym "n", .num (3 / 2))]⟩ ⟨1, [(.sym "n", .num q)]⟩) = (4 : ℝ) ^ (3 / 2 : ℝ) := by
    intro q hq
    have hnp : isPosInt (.num (3 / 2)) = false := by
      rw [Bool.eq_false_iff]
      intro h
      obtain ⟨k, hk, he⟩ := posInt_num.mp h
      have : (3 : ℚ) = 2 * k := by rw [← he]; norm_num
      have : 3 = 2 * k := by exact_mod_cast this
      omega
    have hne : ¬ (3 / 2 : ℚ) = q := by rcases hq with rfl | rfl <;> norm_num
    have : numFactor [(Expr.sym "n", Expr.num q)] (.sym "n", .num (3 / 2)) = powE (.sym "n") (.num (3 / 2)) := by
      simp [numFactor, hne, hnp]
    rw [factorFor, hs, hs, List.foldr_cons, List.foldr_nil, this, eval_mulE, eval_powE]
    simp [eval, hρ, realInterp]
  refine ⟨_, by rw [exRoot, numDen, ndStep, hrs]; rfl, ?_, ?_⟩
  · dsimp only
    rw [hcd, findNumerator]
    simp only [List.foldr_cons, List.foldr_nil, eval_addE, eval_mulE]
    rw [if_neg (by norm_num), if_neg (by norm_num), hff _ (.inl rfl), hff _ (.inr rfl)]
    have hpos : (0 : ℝ) < (4 : ℝ) ^ (3 / 2 : ℝ) := by positivity
    have hv : (⟨1, [(.sym "n", .num (3 / 2))]⟩ : Den).val (realInterp ξ) ρ = (4 : ℝ) ^ (3 / 2 : ℝ) := by
      simp [Den.val, powVal, eval, hρ, realInterp]
    rw [hv]
    simp only [eval]
    field_simp
    norm_num
  · have h4 : (4 : ℝ) ^ (-1 / 2 : ℝ) = 1 / 2 := by
      rw [show (4 : ℝ) = 2 ^ (2 : ℝ) by norm_num, ← Real.rpow_mul (by norm_num)]
      norm_num
    have h5 : (4 : ℝ) ^ (-1 : ℝ) = 1 / 4 := by rw [Real.rpow_neg_one]; norm_num
    simp only [exRoot, eval, List.map_cons, List.map_nil, List.sum_cons, List.sum_nil, hρ]
    have e1 : (realInterp ξ).pw 4 ((-1 / 2 : ℚ) : ℝ) = 1 / 2 := by
      rw [← h4]; simp [realInterp]
    have e2 : (realInterp ξ).pw 4 ((-1 : ℚ) : ℝ) = 1 / 4 := by
      rw [← h5]; simp [realInterp]
    rw [e1, e2]; norm_num

end Purrs.NumDen
