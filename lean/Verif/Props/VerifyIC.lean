import Verif.Props.Verify

/-!
# C40: which occurrences of the unknown function count as initial conditions

`has_only_symbolic_initial_conditions` (src/util.cc:652-689) is what splits a candidate solution into the terms that depend on
the initial conditions and the others.  The specification: the argument of every outermost occurrence of `x(...)` is a natural
number, `mod(n, k)`, a sum of two terms one of which is a `mod`, or `Sc(_, k)`, with `k` a positive integer.
-/

namespace Purrs.Verify

open Purrs

/-- `OuterX a e`: the application of `x` to `a :: _` occurs in `e` outside any other application of `x`. -/
inductive OuterX (l : List Expr) : Expr → Prop
  | here : OuterX l (.fn .x l)
  | add {m a} : a ∈ m → OuterX l a → OuterX l (.add m)
  | mul {m a} : a ∈ m → OuterX l a → OuterX l (.mul m)
  | base {b e} : OuterX l b → OuterX l (.pow b e)
  | expo {b e} : OuterX l e → OuterX l (.pow b e)
  | fn {f m a} : f ≠ .x → a ∈ m → OuterX l a → OuterX l (.fn f m)
  | idx {k i a b c} : OuterX l i → OuterX l (.binder k i a b c)
  | lo {k i a b c} : OuterX l a → OuterX l (.binder k i a b c)
  | up {k i a b c} : OuterX l b → OuterX l (.binder k i a b c)
  | body {k i a b c} : OuterX l c → OuterX l (.binder k i a b c)

/-- The arguments that stand for an initial condition. -/
def ICArg (n : String) (a : Expr) : Prop :=
  (∃ k : ℕ, a = .num k) ∨ (∃ k : ℕ, 0 < k ∧ a = .fn .mod [.sym n, .num k]) ∨
    (∃ l b, a = .add [.fn .mod l, b] ∨ a = .add [b, .fn .mod l]) ∨ (∃ (b : Expr) (k : ℕ), 0 < k ∧ a = .fn .sc [b, .num k])

theorem isPosInt_iff (e : Expr) : isPosInt e = true ↔ ∃ k : ℕ, 0 < k ∧ e = .num k := by
  constructor
  · intro h
    cases e <;> simp [isPosInt] at h
    rename_i q
    have h0 : 0 < q.num := Rat.num_pos.mpr h.2
    refine ⟨q.num.toNat, by omega, ?_⟩
    congr 1
    have h1 : ((q.num.toNat : ℤ) : ℚ) = q := by
      rw [Int.toNat_of_nonneg h0.le]
      exact (Rat.den_eq_one_iff q).mp h.1
    exact_mod_cast h1.symm
  · rintro ⟨k, hk, rfl⟩
    simp [isPosInt, hk]

theorem isICArg_iff (n : String) (a : Expr) : isICArg n a = true ↔ ICArg n a := by
  constructor
  · intro h
    unfold isICArg at h
    split at h
    · rename_i q
      simp at h
      refine .inl ⟨q.num.toNat, ?_⟩
      congr 1
      have h1 : ((q.num.toNat : ℤ) : ℚ) = q := by
        rw [Int.toNat_of_nonneg (Rat.num_nonneg.mpr h.2)]
        exact (Rat.den_eq_one_iff q).mp h.1
      exact_mod_cast h1.symm
    · simp at h
      obtain ⟨k, hk, rfl⟩ := (isPosInt_iff _).mp h.2
      exact .inr (.inl ⟨k, hk, by rw [h.1]⟩)
    · exact .inr (.inr (.inl ⟨_, _, .inl rfl⟩))
    · exact .inr (.inr (.inl ⟨_, _, .inr rfl⟩))
    · obtain ⟨k, hk, rfl⟩ := (isPosInt_iff _).mp h
      exact .inr (.inr (.inr ⟨_, k, hk, rfl⟩))
    · exact absurd h (by simp)
  · rintro (⟨k, rfl⟩ | ⟨k, hk, rfl⟩ | ⟨l, b, rfl | rfl⟩ | ⟨b, k, hk, rfl⟩)
    · simp [isICArg]
    · have : isPosInt (.num (k : ℚ)) = true := (isPosInt_iff _).mpr ⟨k, hk, rfl⟩
      simp [isICArg, this]
    · simp [isICArg]
    · unfold isICArg; split <;> simp_all
    · have : isPosInt (.num (k : ℚ)) = true := (isPosInt_iff _).mpr ⟨k, hk, rfl⟩
      simp [isICArg, this]

/-- **C40, the initial-condition part of a candidate**: a term is counted as built from initial conditions exactly when every
outermost occurrence of `x` in it has one of the four admitted shapes of arguments. -/
theorem C40_only_initial_conditions_partial (n : String) (e : Expr) :
    hasOnlyIC n e = true ↔ ∀ l, OuterX l e → ICArg n (l.headD (.num 0)) := by
  induction e using Expr.ind with
  | num q => simp only [hasOnlyIC, true_iff]; intro l h; cases h
  | const q => simp only [hasOnlyIC, true_iff]; intro l h; cases h
  | sym s => simp only [hasOnlyIC, true_iff]; intro l h; cases h
  | add m ih =>
    simp only [hasOnlyIC, List.all_map, List.all_eq_true, Function.comp, id]
    constructor
    · intro h l hl
      cases hl with
      | add ha hl => exact (ih _ ha).mp (h _ ha) l hl
    · exact fun h a ha => (ih a ha).mpr fun l hl => h l (.add ha hl)
  | mul m ih =>
    simp only [hasOnlyIC, List.all_map, List.all_eq_true, Function.comp, id]
    constructor
    · intro h l hl
      cases hl with
      | mul ha hl => exact (ih _ ha).mp (h _ ha) l hl
    · exact fun h a ha => (ih a ha).mpr fun l hl => h l (.mul ha hl)
  | pow b e hb he =>
    simp only [hasOnlyIC, Bool.and_eq_true, hb, he]
    constructor
    · rintro ⟨h1, h2⟩ l hl
      cases hl with
      | base hl => exact h1 l hl
      | expo hl => exact h2 l hl
    · exact fun h => ⟨fun l hl => h l (.base hl), fun l hl => h l (.expo hl)⟩
  | fn f m ih =>
    by_cases hf : f = .x
    · subst hf
      rw [show hasOnlyIC n (.fn .x m) = isICArg n (m.headD (.num 0)) by cases m <;> simp [hasOnlyIC], isICArg_iff]
      constructor
      · intro h l hl
        cases hl with
        | here => exact h
        | fn hf => exact absurd rfl hf
      · exact fun h => h m .here
    · rw [show hasOnlyIC n (.fn f m) = (m.map fun a => hasOnlyIC n a).all id by cases m <;> simp [hasOnlyIC, hf]]
      simp only [List.all_map, List.all_eq_true, Function.comp, id]
      constructor
      · intro h l hl
        cases hl with
        | here => exact absurd rfl hf
        | fn _ ha hl => exact (ih _ ha).mp (h _ ha) l hl
      · exact fun h a ha => (ih a ha).mpr fun l hl => h l (.fn hf ha hl)
  | binder k i a b c hi ha hb hc =>
    simp only [hasOnlyIC, Bool.and_eq_true, hi, ha, hb, hc]
    constructor
    · rintro ⟨⟨⟨h1, h2⟩, h3⟩, h4⟩ l hl
      cases hl with
      | idx hl => exact h1 l hl
      | lo hl => exact h2 l hl
      | up hl => exact h3 l hl
      | body hl => exact h4 l hl
    · exact fun h => ⟨⟨⟨fun l hl => h l (.idx hl), fun l hl => h l (.lo hl)⟩, fun l hl => h l (.up hl)⟩, fun l hl => h l (.body hl)⟩

/-- Both verdicts occur: `3·x(2)` is built from initial conditions, `x(n) + x(-1)` is not. -/
theorem C40_only_initial_conditions_nonvacuous : hasOnlyIC "n" (.mul [.num 3, .fn .x [.num 2]]) = true ∧
    hasOnlyIC "n" (.add [.num 3, .fn .x [.num (-1)]]) = false := by
  constructor <;> simp [hasOnlyIC, isICArg]

end Purrs.Verify
