import Verif.Model.Rename
import Verif.Props.BlackboardSem
import Mathlib.Data.Finset.Card
import Mathlib.Data.Finset.Image

/-!
# C29: replacing system-generated symbols
-/

set_option linter.unusedSectionVars false

namespace Purrs

open Function (update)

variable {K : Type} [Field K] [CharZero K]

/-! ## Names -/

theorem newSymbolName_toList (i : Nat) :
    (newSymbolName i).toList = symbolLetters.getD (i % 23) 'a' ::
      (if i / 23 = 0 then [] else (Nat.repr (i / 23)).toList) := by
  unfold newSymbolName
  simp only
  split_ifs <;> simp

theorem letters_inj : ∀ i < 23, ∀ j < 23,
    symbolLetters.getD i 'a' = symbolLetters.getD j 'a' → i = j := by decide

theorem repr_ne_nil (n : Nat) : (Nat.repr n).toList ≠ [] := by
  intro h
  have : Nat.repr n = "" := String.toList_injective (by rw [h]; rfl)
  rw [Nat.repr_eq_ofList_toDigits] at this
  have h2 := congrArg String.toList this
  simp at h2

/-- **C29**: distinct indices give distinct names. -/
theorem C29_names_injective : Function.Injective newSymbolName := by
  intro i j h
  have h' := congrArg String.toList h
  rw [newSymbolName_toList, newSymbolName_toList] at h'
  obtain ⟨h1, h2⟩ := List.cons.inj h'
  have hm := letters_inj _ (Nat.mod_lt i (by norm_num)) _ (Nat.mod_lt j (by norm_num)) h1
  have hd : i / 23 = j / 23 := by
    split_ifs at h2 with a b b
    · omega
    · exact absurd h2.symm (repr_ne_nil _)
    · exact absurd h2 (repr_ne_nil _)
    · exact Nat.repr_injective (String.toList_injective h2)
  omega

/-- **C29**: no such name looks like a system-generated one. -/
theorem C29_names_not_system (i : Nat) : isSystemGenerated (newSymbolName i) = false := by
  unfold isSystemGenerated
  split_ifs with h1 h2
  · rfl
  · rfl
  · exfalso
    rw [newSymbolName_toList] at h1 h2
    split_ifs at h1 h2 with h3
    · simp at h1
    · rw [not_not] at h2
      -- the second character is a digit, not a `y`
      have hlen : 1 ≤ (Nat.repr (i / 23)).toList.length := by
        rcases hh : (Nat.repr (i / 23)).toList with _ | ⟨c, t⟩
        · exact absurd hh (repr_ne_nil _)
        · simp
      rcases hh : (Nat.repr (i / 23)).toList with _ | ⟨c, t⟩
      · exact absurd hh (repr_ne_nil _)
      · rw [hh] at h2
        simp only [List.take_succ_cons] at h2
        have hc : c = 'y' := by
          have := congrArg (fun l => l.getD 1 'a') h2
          simpa using this
        have hmem : c ∈ (Nat.repr (i / 23)).toList := by rw [hh]; simp
        rw [Nat.repr_eq_ofList_toDigits, String.toList_ofList] at hmem
        have := Nat.isDigit_of_mem_toDigits (b := 10) (by norm_num) (by norm_num) hmem
        rw [hc] at this
        exact absurd this (by decide)

/-- The names auto-generated for nameless symbols are recognised. -/
theorem C29_system_names_recognised (k : Nat) : isSystemGenerated (autoName k) = true := by
  have e : (autoName k).toList = "symbol".toList ++ (Nat.repr k).toList := by
    unfold autoName; rw [String.toList_append]
  have h6 : "symbol".toList.length = 6 := by decide
  have hne := repr_ne_nil k
  unfold isSystemGenerated
  rw [e]
  have hl : ¬ ("symbol".toList ++ (Nat.repr k).toList).length < 7 := by
    rw [List.length_append, h6]
    have : 0 < (Nat.repr k).toList.length := List.length_pos_iff.2 hne
    omega
  rw [if_neg hl]
  have ht : List.take 6 ("symbol".toList ++ (Nat.repr k).toList) = "symbol".toList := by
    rw [List.take_append_of_le_length (by rw [h6]), List.take_of_length_le (by rw [h6])]
  rw [if_neg (not_not.2 ht)]
  have hd : List.drop 6 ("symbol".toList ++ (Nat.repr k).toList) = (Nat.repr k).toList := by
    rw [List.drop_append_of_le_length (by rw [h6]), List.drop_of_length_le (by rw [h6])]; rfl
  rw [hd, List.all_eq_true]
  intro c hc
  rw [Nat.repr_eq_ofList_toDigits, String.toList_ofList] at hc
  have := Nat.isDigit_of_mem_toDigits (b := 10) (by norm_num) (by norm_num) hc
  have hd : ∀ c : Char, c.isDigit = true → c ∈ "0123456789".toList := by
    intro c hc
    simp only [Char.isDigit, Bool.and_eq_true, decide_eq_true_eq] at hc
    have h1 : 48 ≤ c.toNat := hc.1
    have h2 : c.toNat ≤ 57 := hc.2
    have : c = Char.ofNat c.toNat := (Char.ofNat_toNat c).symm
    rw [this]
    generalize c.toNat = m at *
    interval_cases m <;> decide
  simpa using hd c this

/-- The search for an unused name ends with one that is not in use. -/
theorem pick_fresh (used : List String) (i : Nat) : pickName used.length used i ∉ used := by
  -- among any `n + 1` consecutive names at least one is not in a list of `n`
  have gen : ∀ (n i : Nat), (∃ j, i ≤ j ∧ j ≤ i + n ∧ newSymbolName j ∉ used) →
      pickName n used i ∉ used := by
    intro n
    induction n with
    | zero =>
      rintro i ⟨j, h1, h2, h3⟩
      have : j = i := by omega
      subst this
      exact h3
    | succ n ih =>
      rintro i ⟨j, h1, h2, h3⟩
      unfold pickName
      split_ifs with h
      · apply ih
        refine ⟨j, ?_, by omega, h3⟩
        rcases Nat.lt_or_ge i j with g | g
        · omega
        · have : j = i := by omega
          subst this
          exact absurd h h3
      · exact h
  apply gen
  by_contra hn
  push Not at hn
  have hsub : (Finset.range (used.length + 1)).image (fun k => newSymbolName (i + k)) ⊆ used.toFinset := by
    intro s hs
    rw [Finset.mem_image] at hs
    obtain ⟨k, hk, rfl⟩ := hs
    rw [Finset.mem_range] at hk
    rw [List.mem_toFinset]
    exact hn (i + k) (by omega) (by omega)
  have hc := Finset.card_le_card hsub
  rw [Finset.card_image_of_injective _ (fun a b h => by
    have := C29_names_injective h; omega), Finset.card_range] at hc
  have := List.toFinset_card_le used
  omega

theorem pick_is_name (n : Nat) (used : List String) (i : Nat) : ∃ j, pickName n used i = newSymbolName j := by
  induction n generalizing i with
  | zero => exact ⟨i, rfl⟩
  | succ n ih =>
    unfold pickName
    split_ifs
    · exact ih _
    · exact ⟨i, rfl⟩

/-! ## Symbols of an expression -/

theorem mem_symsOf (e : Expr) (s : String) : s ∈ symsOf e ↔ Sub (.sym s) e := by
  induction e using Expr.ind with
  | num q => simp only [symsOf, List.not_mem_nil, false_iff]; exact fun h => by cases h
  | const q => simp only [symsOf, List.not_mem_nil, false_iff]; exact fun h => by cases h
  | sym t =>
    simp only [symsOf, List.mem_singleton]
    constructor
    · rintro rfl; exact .refl _
    · intro h; cases h; rfl
  | add l ih =>
    simp only [symsOf, List.mem_flatten, List.mem_map]
    constructor
    · rintro ⟨_, ⟨a, ha, rfl⟩, hs⟩; exact .add ha ((ih a ha).1 hs)
    · intro h
      cases h with
      | add ha hs => exact ⟨_, ⟨_, ha, rfl⟩, (ih _ ha).2 hs⟩
  | mul l ih =>
    simp only [symsOf, List.mem_flatten, List.mem_map]
    constructor
    · rintro ⟨_, ⟨a, ha, rfl⟩, hs⟩; exact .mul ha ((ih a ha).1 hs)
    · intro h
      cases h with
      | mul ha hs => exact ⟨_, ⟨_, ha, rfl⟩, (ih _ ha).2 hs⟩
  | pow b e hb he =>
    simp only [symsOf, List.mem_append, hb, he]
    constructor
    · rintro (h | h)
      · exact .powB h
      · exact .powE h
    · intro h
      cases h with
      | powB h => exact Or.inl h
      | powE h => exact Or.inr h
  | fn f l ih =>
    simp only [symsOf, List.mem_flatten, List.mem_map]
    constructor
    · rintro ⟨_, ⟨a, ha, rfl⟩, hs⟩; exact .fn ha ((ih a ha).1 hs)
    · intro h
      cases h with
      | fn ha hs => exact ⟨_, ⟨_, ha, rfl⟩, (ih _ ha).2 hs⟩
  | binder k i a b c hi ha hb hc =>
    simp only [symsOf, List.mem_append, hi, ha, hb, hc]
    constructor
    · rintro (((h | h) | h) | h)
      · exact .bI h
      · exact .bLo h
      · exact .bUp h
      · exact .bBody h
    · intro h
      cases h with
      | bI h => exact Or.inl (Or.inl (Or.inl h))
      | bLo h => exact Or.inl (Or.inl (Or.inr h))
      | bUp h => exact Or.inl (Or.inr h)
      | bBody h => exact Or.inr h

theorem mem_sysSyms (e : Expr) (s : String) :
    s ∈ sysSyms e ↔ Sub (.sym s) e ∧ isSystemGenerated s = true := by
  unfold sysSyms
  rw [List.mem_mergeSort, List.mem_dedup, List.mem_filter, mem_symsOf]

theorem sysSyms_nodup (e : Expr) : (sysSyms e).Nodup :=
  (List.mergeSort_perm _ _).nodup_iff.2 (List.nodup_dedup _)

theorem mem_goodSyms (e : Expr) (s : String) :
    s ∈ goodSyms e ↔ Sub (.sym s) e ∧ isSystemGenerated s = false := by
  unfold goodSyms
  rw [List.mem_filter, mem_symsOf]
  simp

/-! ## Renaming one symbol -/

/-- Every bound variable of a `sum` or `prod` in `e` is a symbol. -/
def IdxSym (e : Expr) : Prop := ∀ k i a b c, Sub (.binder k i a b c) e → ∃ t, i = .sym t

theorem subB_add {k i a b c l} : Sub (.binder k i a b c) (.add l) ↔
    ∃ y ∈ l, Sub (.binder k i a b c) y := by
  constructor
  · intro h; cases h with | add ha h => exact ⟨_, ha, h⟩
  · rintro ⟨a, ha, h⟩; exact .add ha h
theorem subB_mul {k i a b c l} : Sub (.binder k i a b c) (.mul l) ↔
    ∃ y ∈ l, Sub (.binder k i a b c) y := by
  constructor
  · intro h; cases h with | mul ha h => exact ⟨_, ha, h⟩
  · rintro ⟨a, ha, h⟩; exact .mul ha h
theorem subB_fn {k i a b c f l} : Sub (.binder k i a b c) (.fn f l) ↔
    ∃ y ∈ l, Sub (.binder k i a b c) y := by
  constructor
  · intro h; cases h with | fn ha h => exact ⟨_, ha, h⟩
  · rintro ⟨a, ha, h⟩; exact .fn ha h
theorem subB_pow {k i a b c x y} : Sub (.binder k i a b c) (.pow x y) ↔
    Sub (.binder k i a b c) x ∨ Sub (.binder k i a b c) y := by
  constructor
  · intro h; cases h with | powB h => exact Or.inl h | powE h => exact Or.inr h
  · rintro (h | h); exacts [.powB h, .powE h]
theorem subB_num {k i a b c q} : ¬ Sub (.binder k i a b c) (.num q) := by intro h; cases h
theorem subB_const {k i a b c q} : ¬ Sub (.binder k i a b c) (.const q) := by intro h; cases h
theorem subB_sym {k i a b c q} : ¬ Sub (.binder k i a b c) (.sym q) := by intro h; cases h

theorem subB_addE {k i a b c x y} (h : Sub (.binder k i a b c) (addE x y)) :
    Sub (.binder k i a b c) x ∨ Sub (.binder k i a b c) y := by
  revert h
  cases x <;> cases y <;> simp only [addE] <;> (try split) <;>
    simp_all [subB_add, subB_num, subB_const, subB_sym, or_and_right, exists_or]
theorem subB_mulE {k i a b c x y} (h : Sub (.binder k i a b c) (mulE x y)) :
    Sub (.binder k i a b c) x ∨ Sub (.binder k i a b c) y := by
  revert h
  cases x <;> cases y <;> simp only [mulE] <;> (try split) <;> (try split) <;>
    simp_all [subB_mul, subB_num, subB_const, subB_sym, or_and_right, exists_or]
theorem subB_powE {k i a b c x y} (h : Sub (.binder k i a b c) (powE x y)) :
    Sub (.binder k i a b c) x ∨ Sub (.binder k i a b c) y := by
  revert h
  cases x <;> cases y <;> simp only [powE] <;> (try split) <;> (try split) <;>
    simp_all [subB_pow, subB_num, subB_const, subB_sym]

theorem IdxSym.sub {e e' : Expr} (h : IdxSym e) (hs : Sub e' e) : IdxSym e' :=
  fun k i a b c hb => h k i a b c (hb.trans hs)

/-- Renaming keeps bound variables symbols. -/
theorem IdxSym.rename {e : Expr} (h : IdxSym e) (s t : String) :
    IdxSym (substitute (.sym s) (.sym t) e) := by
  induction e using Expr.ind with
  | num q => simpa [substitute] using h
  | const q => simpa [substitute] using h
  | sym u =>
    intro k i a b c hb
    exfalso
    rw [substitute] at hb
    split_ifs at hb <;> exact subB_sym hb
  | add l ih =>
    rw [substitute]
    simp only [reduceCtorEq, if_false]
    intro k i a b c hb
    have : ∀ m : List Expr, (∀ y ∈ m, IdxSym (substitute (.sym s) (.sym t) y)) →
        Sub (.binder k i a b c) (m.foldr (fun a acc => addE acc (substitute (.sym s) (.sym t) a)) (.num 0)) →
        ∃ t, i = .sym t := by
      intro m
      induction m with
      | nil => intro _ hb; exact absurd hb subB_num
      | cons y m ihm =>
        intro hy hb
        rcases subB_addE hb with hb | hb
        · exact ihm (fun z hz => hy z (List.mem_cons_of_mem _ hz)) hb
        · exact hy y (List.mem_cons_self) _ _ _ _ _ hb
    exact this l (fun y hy => ih y hy (h.sub (.add hy (.refl _)))) hb
  | mul l ih =>
    rw [substitute]
    simp only [reduceCtorEq, if_false]
    intro k i a b c hb
    have : ∀ m : List Expr, (∀ y ∈ m, IdxSym (substitute (.sym s) (.sym t) y)) →
        Sub (.binder k i a b c) (m.foldr (fun a acc => mulE acc (substitute (.sym s) (.sym t) a)) (.num 1)) →
        ∃ t, i = .sym t := by
      intro m
      induction m with
      | nil => intro _ hb; exact absurd hb subB_num
      | cons y m ihm =>
        intro hy hb
        rcases subB_mulE hb with hb | hb
        · exact ihm (fun z hz => hy z (List.mem_cons_of_mem _ hz)) hb
        · exact hy y (List.mem_cons_self) _ _ _ _ _ hb
    exact this l (fun y hy => ih y hy (h.sub (.mul hy (.refl _)))) hb
  | pow b e hb he =>
    rw [substitute]
    simp only [reduceCtorEq, if_false]
    intro k i a b c hbb
    rcases subB_powE hbb with hx | hx
    · exact hb (h.sub (.powB (.refl _))) _ _ _ _ _ hx
    · exact he (h.sub (.powE (.refl _))) _ _ _ _ _ hx
  | fn f l ih =>
    rw [substitute]
    simp only [reduceCtorEq, if_false]
    intro k i a b c hb
    rw [subB_fn] at hb
    obtain ⟨_, hy, hb⟩ := hb
    rw [List.mem_map] at hy
    obtain ⟨y, hy, rfl⟩ := hy
    exact ih y hy (h.sub (.fn hy (.refl _))) _ _ _ _ _ hb
  | binder k i a b c hi ha hb hc =>
    rw [substitute]
    simp only [reduceCtorEq, if_false]
    intro k' i' a' b' c' hbb
    cases hbb with
    | refl =>
      obtain ⟨u, rfl⟩ := h _ _ _ _ _ (.refl _)
      rw [substitute]
      split_ifs <;> exact ⟨_, rfl⟩
    | bI hx => exact hi (h.sub (.bI (.refl _))) _ _ _ _ _ hx
    | bLo hx => exact ha (h.sub (.bLo (.refl _))) _ _ _ _ _ hx
    | bUp hx => exact hb (h.sub (.bUp (.refl _))) _ _ _ _ _ hx
    | bBody hx => exact hc (h.sub (.bBody (.refl _))) _ _ _ _ _ hx

/-- The symbols after a renaming. -/
theorem sub_rename {s t u : String} {e : Expr}
    (h : Sub (.sym u) (substitute (.sym s) (.sym t) e)) : u = t ∨ (u ≠ s ∧ Sub (.sym u) e) := by
  induction e using Expr.ind with
  | num q => simp [substitute, sub_num] at h
  | const q => simp [substitute, sub_const] at h
  | sym v =>
    rw [substitute] at h
    split_ifs at h with hv
    · exact Or.inl (sub_sym.1 h)
    · have := sub_sym.1 h
      subst this
      refine Or.inr ⟨?_, .refl _⟩
      rintro rfl; exact hv rfl
  | add l ih =>
    rw [substitute] at h
    simp only [reduceCtorEq, if_false] at h
    have : ∀ m : List Expr, Sub (.sym u) (m.foldr (fun a acc => addE acc (substitute (.sym s) (.sym t) a)) (.num 0)) →
        ∃ y ∈ m, Sub (.sym u) (substitute (.sym s) (.sym t) y) := by
      intro m
      induction m with
      | nil => intro hb; exact absurd hb sub_num
      | cons y m ihm =>
        intro hb
        rcases sub_addE hb with hb | hb
        · obtain ⟨z, hz, hb⟩ := ihm hb; exact ⟨z, List.mem_cons_of_mem _ hz, hb⟩
        · exact ⟨y, List.mem_cons_self, hb⟩
    obtain ⟨y, hy, hs⟩ := this l h
    rcases ih y hy hs with h | ⟨h1, h2⟩
    · exact Or.inl h
    · exact Or.inr ⟨h1, .add hy h2⟩
  | mul l ih =>
    rw [substitute] at h
    simp only [reduceCtorEq, if_false] at h
    have : ∀ m : List Expr, Sub (.sym u) (m.foldr (fun a acc => mulE acc (substitute (.sym s) (.sym t) a)) (.num 1)) →
        ∃ y ∈ m, Sub (.sym u) (substitute (.sym s) (.sym t) y) := by
      intro m
      induction m with
      | nil => intro hb; exact absurd hb sub_num
      | cons y m ihm =>
        intro hb
        rcases sub_mulE hb with hb | hb
        · obtain ⟨z, hz, hb⟩ := ihm hb; exact ⟨z, List.mem_cons_of_mem _ hz, hb⟩
        · exact ⟨y, List.mem_cons_self, hb⟩
    obtain ⟨y, hy, hs⟩ := this l h
    rcases ih y hy hs with h | ⟨h1, h2⟩
    · exact Or.inl h
    · exact Or.inr ⟨h1, .mul hy h2⟩
  | pow b e hb he =>
    rw [substitute] at h
    simp only [reduceCtorEq, if_false] at h
    rcases sub_powE h with h | h
    · exact (hb h).imp id fun ⟨x, y⟩ => ⟨x, .powB y⟩
    · exact (he h).imp id fun ⟨x, y⟩ => ⟨x, .powE y⟩
  | fn f l ih =>
    rw [substitute] at h
    simp only [reduceCtorEq, if_false] at h
    rw [sub_fn] at h
    obtain ⟨_, hy, hs⟩ := h
    rw [List.mem_map] at hy
    obtain ⟨y, hy, rfl⟩ := hy
    exact (ih y hy hs).imp id fun ⟨x, z⟩ => ⟨x, .fn hy z⟩
  | binder k i a b c hi ha hb hc =>
    rw [substitute] at h
    simp only [reduceCtorEq, if_false] at h
    rw [sub_binder] at h
    rcases h with h | h | h | h
    · exact (hi h).imp id fun ⟨x, z⟩ => ⟨x, .bI z⟩
    · exact (ha h).imp id fun ⟨x, z⟩ => ⟨x, .bLo z⟩
    · exact (hb h).imp id fun ⟨x, z⟩ => ⟨x, .bUp z⟩
    · exact (hc h).imp id fun ⟨x, z⟩ => ⟨x, .bBody z⟩

/-- Renaming a symbol, bound or free, to one that does not occur. -/
theorem eval_rename (I : Interp K) (s t : String) (e : Expr) (ht : ¬ Sub (.sym t) e)
    (hx : IdxSym e) (ρ : String → K) :
    eval I ρ (substitute (.sym s) (.sym t) e) = eval I (update ρ s (ρ t)) e := by
  induction e using Expr.ind generalizing ρ with
  | num q => simp [substitute, eval]
  | const q => simp [substitute, eval]
  | sym u =>
    by_cases hs : u = s
    · subst hs; simp [substitute, eval]
    · simp [substitute, eval, hs]
  | add l ih =>
    rw [substitute]
    simp only [reduceCtorEq, if_false, eval_foldr_addE, eval]
    simp only [Rat.cast_zero, zero_add]
    congr 1
    exact List.map_congr_left fun a ha =>
      ih a ha (fun h => ht (.add ha h)) (hx.sub (.add ha (.refl _))) ρ
  | mul l ih =>
    rw [substitute]
    simp only [reduceCtorEq, if_false, eval_foldr_mulE, eval]
    simp only [Rat.cast_one, one_mul]
    congr 1
    exact List.map_congr_left fun a ha =>
      ih a ha (fun h => ht (.mul ha h)) (hx.sub (.mul ha (.refl _))) ρ
  | pow b e hb he =>
    rw [substitute]
    simp [eval_powE, eval, hb (fun h => ht (.powB h)) (hx.sub (.powB (.refl _))),
      he (fun h => ht (.powE h)) (hx.sub (.powE (.refl _)))]
  | fn f l ih =>
    simp only [substitute, reduceCtorEq, if_false, eval, List.map_map]
    congr 1
    exact List.map_congr_left fun a ha =>
      ih a ha (fun h => ht (.fn ha h)) (hx.sub (.fn ha (.refl _))) ρ
  | binder k i a b c hi ha hb hc =>
    have hci := hc (fun h => ht (.bBody h)) (hx.sub (.bBody (.refl _)))
    simp only [substitute, reduceCtorEq, if_false, eval,
      ha (fun h => ht (.bLo h)) (hx.sub (.bLo (.refl _))),
      hb (fun h => ht (.bUp h)) (hx.sub (.bUp (.refl _)))]
    congr 1
    funext w
    obtain ⟨u, rfl⟩ := hx _ _ _ _ _ (.refl _)
    have hut : u ≠ t := by rintro rfl; exact ht (.bI (.refl _))
    by_cases hus : u = s
    · subst hus
      simp only [bindIdx, substitute, if_true]
      rw [hci]
      simp only [Function.update_self]
      refine eval_congr I c _ _ fun v hv => ?_
      have hvt : v ≠ t := by rintro rfl; exact ht (.bBody hv)
      by_cases hvu : v = u
      · subst hvu; simp
      · simp [Function.update_of_ne hvu, Function.update_of_ne hvt]
    · have : substitute (.sym s) (.sym t) (.sym u) = .sym u := by simp [substitute, hus]
      rw [this]
      simp only [bindIdx]
      rw [hci, Function.update_of_ne hut.symm, Function.update_comm hus]

/-! ## The whole replacement -/

/-- The renaming made by a list of pairs. -/
def renameOf (ps : List (String × String)) (s : String) : String :=
  match ps with
  | [] => s
  | (b, t) :: ps => if s = b then t else renameOf ps s

theorem renameOf_of_notMem {ps : List (String × String)} {s : String}
    (h : s ∉ ps.map Prod.fst) : renameOf ps s = s := by
  induction ps with
  | nil => rfl
  | cons p ps ih =>
    obtain ⟨b, t⟩ := p
    simp only [List.map_cons, List.mem_cons, not_or] at h
    simp [renameOf, h.1, ih h.2]

/-- What one run of the loop guarantees. -/
theorem replaceLoop_spec (I : Interp K) (bs : List String) : ∀ (i : Nat) (used : List String) (e : Expr)
    (B : Blackboard), bs.Nodup → (∀ b ∈ bs, isSystemGenerated b = true) →
    (∀ u, Sub (.sym u) e → u ∈ used ∨ u ∈ bs) →
    (∀ u ∈ used, isSystemGenerated u = false) → IdxSym e →
    let r := replaceLoop bs i used e B
    r.2.2.map Prod.fst = bs ∧
    (r.2.2.map Prod.snd).Nodup ∧
    (∀ t ∈ r.2.2.map Prod.snd, t ∉ used ∧ isSystemGenerated t = false) ∧
    (∀ u, Sub (.sym u) r.1 → isSystemGenerated u = false) ∧
    (∀ ρ : String → K, eval I ρ r.1 = eval I (fun s => ρ (renameOf r.2.2 s)) e) := by
  induction bs with
  | nil =>
    intro i used e B hn hsys hcov hused hx
    refine ⟨rfl, List.nodup_nil, by simp [replaceLoop], ?_, fun ρ => rfl⟩
    intro u hu
    rcases hcov u hu with h | h
    · exact hused u h
    · simp at h
  | cons b bs ih =>
    intro i used e B hn hsys hcov hused hx
    set name := pickName used.length used i with hname
    have hfresh : name ∉ used := pick_fresh used i
    obtain ⟨j, hj⟩ := pick_is_name used.length used i
    have hgood : isSystemGenerated name = false := by rw [hname, hj]; exact C29_names_not_system j
    have hnot : ¬ Sub (.sym name) e := by
      intro h
      rcases hcov _ h with h | h
      · exact hfresh h
      · rw [hsys _ h] at hgood; cases hgood
    have hn' := List.nodup_cons.1 hn
    have := ih (i + 1) (name :: used) (substitute (.sym b) (.sym name) e) (B.substitute b name)
      hn'.2 (fun c hc => hsys c (List.mem_cons_of_mem _ hc)) (by
        intro u hu
        rcases sub_rename hu with h | ⟨h1, h2⟩
        · exact Or.inl (by rw [h]; exact List.mem_cons_self)
        · rcases hcov u h2 with h | h
          · exact Or.inl (List.mem_cons_of_mem _ h)
          · rcases List.mem_cons.1 h with h | h
            · exact absurd h h1
            · exact Or.inr h) (by
        intro u hu
        rcases List.mem_cons.1 hu with h | h
        · rw [h]; exact hgood
        · exact hused u h) (hx.rename b name)
    obtain ⟨h1, h2, h3, h4, h5⟩ := this
    simp only [replaceLoop, ← hname]
    set r := replaceLoop bs (i + 1) (name :: used) (substitute (.sym b) (.sym name) e)
      (B.substitute b name) with hr
    refine ⟨by simp [h1], ?_, ?_, h4, ?_⟩
    · simp only [List.map_cons, List.nodup_cons]
      exact ⟨fun h => (h3 _ h).1 List.mem_cons_self, h2⟩
    · intro t ht
      simp only [List.map_cons, List.mem_cons] at ht
      rcases ht with rfl | ht
      · exact ⟨hfresh, hgood⟩
      · exact ⟨fun h => (h3 t ht).1 (List.mem_cons_of_mem _ h), (h3 t ht).2⟩
    · intro ρ
      rw [h5 ρ, eval_rename I b name e hnot hx]
      refine eval_congr I e _ _ fun s hs => ?_
      by_cases hsb : s = b
      · subst hsb
        simp only [Function.update_self, renameOf, if_true]
        rw [renameOf_of_notMem]
        rw [h1]
        intro h
        rw [hsys _ (List.mem_cons_of_mem _ h)] at hgood; cases hgood
      · simp [renameOf, hsb]

/-- **C29** (the expression): after the replacement no system-generated name is left; exactly the
system-generated names were renamed, each to a different name that did not occur in the expression
and is not itself system generated; and the new expression is the old one up to that renaming. -/
theorem C29_replacement (I : Interp K) (e : Expr) (B : Blackboard) (hx : IdxSym e) :
    let r := replaceSystemSymbols e B
    (∀ u, Sub (.sym u) r.1 → isSystemGenerated u = false) ∧
    (∀ s, s ∈ r.2.2.map Prod.fst ↔ (Sub (.sym s) e ∧ isSystemGenerated s = true)) ∧
    (r.2.2.map Prod.snd).Nodup ∧
    (∀ t ∈ r.2.2.map Prod.snd, ¬ Sub (.sym t) e ∧ isSystemGenerated t = false) ∧
    (∀ ρ : String → K, eval I ρ r.1 = eval I (fun s => ρ (renameOf r.2.2 s)) e) := by
  have := replaceLoop_spec I (sysSyms e) 0 (goodSyms e) e B (sysSyms_nodup e)
    (fun b hb => ((mem_sysSyms e b).1 hb).2) (fun u hu => by
      rw [mem_goodSyms, mem_sysSyms]
      cases h : isSystemGenerated u
      · exact Or.inl ⟨hu, rfl⟩
      · exact Or.inr ⟨hu, rfl⟩) (fun u hu => ((mem_goodSyms e u).1 hu).2) hx
  obtain ⟨h1, h2, h3, h4, h5⟩ := this
  refine ⟨h4, fun s => ?_, h2, fun t ht => ⟨fun hs => ?_, (h3 t ht).2⟩, h5⟩
  · unfold replaceSystemSymbols; rw [h1, mem_sysSyms]
  · exact (h3 t ht).1 ((mem_goodSyms e t).2 ⟨hs, (h3 t ht).2⟩)

/-- The renaming is injective on the symbols of the expression, so distinct symbols stay
distinct. -/
theorem C29_distinct (e : Expr) (B : Blackboard) (hx : IdxSym e) (s t : String)
    (hs : Sub (.sym s) e) (ht : Sub (.sym t) e)
    (h : renameOf (replaceSystemSymbols e B).2.2 s = renameOf (replaceSystemSymbols e B).2.2 t) :
    s = t := by
  obtain ⟨-, h2, h3, h4, -⟩ := C29_replacement (K := ℚ) ⟨fun _ => 0, fun a b => if b.den = 1 then a ^ b.num else if a = 1 then 1 else 0,
    fun _ _ => 0, fun _ _ _ _ => 0, by intro a z; simp, by intro a; simp⟩ e B hx
  generalize (replaceSystemSymbols e B).2.2 = ps at *
  have hmem : ∀ (qs : List (String × String)) (v : String), v ∈ qs.map Prod.fst →
      renameOf qs v ∈ qs.map Prod.snd := by
    intro qs
    induction qs with
    | nil => intro v hv; simp at hv
    | cons q qs ih =>
      intro v hv
      obtain ⟨b, t⟩ := q
      simp only [renameOf]
      split_ifs with hvb
      · simp
      · simp only [List.map_cons, List.mem_cons] at hv ⊢
        exact Or.inr (ih v (hv.resolve_left hvb))
  have inj : ∀ (qs : List (String × String)), (qs.map Prod.snd).Nodup → ∀ v w,
      v ∈ qs.map Prod.fst → w ∈ qs.map Prod.fst → renameOf qs v = renameOf qs w → v = w := by
    intro qs
    induction qs with
    | nil => intro _ v w hv; simp at hv
    | cons q qs ih =>
      obtain ⟨b, t⟩ := q
      intro hn v w hv hw he
      simp only [List.map_cons, List.nodup_cons] at hn
      simp only [List.map_cons, List.mem_cons] at hv hw
      simp only [renameOf] at he
      split_ifs at he with h1 h2 h2
      · rw [h1, h2]
      · exact absurd (he ▸ hmem qs w (hw.resolve_left h2)) hn.1
      · exact absurd (he ▸ hmem qs v (hv.resolve_left h1)) hn.1
      · exact ih hn.2 v w (hv.resolve_left h1) (hw.resolve_left h2) he
  by_cases h5 : s ∈ ps.map Prod.fst <;> by_cases h6 : t ∈ ps.map Prod.fst
  · exact inj ps h3 s t h5 h6 h
  · rw [renameOf_of_notMem h6] at h
    exact absurd ht (h ▸ (h4 _ (hmem ps s h5)).1)
  · rw [renameOf_of_notMem h5] at h
    exact absurd hs (h ▸ (h4 _ (hmem ps t h6)).1)
  · rwa [renameOf_of_notMem h5, renameOf_of_notMem h6] at h

/-- A concrete case: two system symbols, one of them bound, next to the user's `a`. -/
def renDemo : Expr := .add [.sym "a", .binder .sum (.sym "symbol7") (.num 0) (.sym "n")
  (.mul [.sym "symbol3", .sym "symbol7"])]

theorem renDemo_idx : IdxSym renDemo := by
  intro k i a b c h
  unfold renDemo at h
  rw [subB_add] at h
  obtain ⟨y, hy, h⟩ := h
  simp only [List.mem_cons, List.not_mem_nil, or_false] at hy
  rcases hy with rfl | rfl
  · exact absurd h subB_sym
  · cases h with
    | refl => exact ⟨_, rfl⟩
    | bI h => exact absurd h subB_sym
    | bLo h => exact absurd h subB_num
    | bUp h => exact absurd h subB_sym
    | bBody h =>
      rw [subB_mul] at h
      obtain ⟨y, hy, h⟩ := h
      simp only [List.mem_cons, List.not_mem_nil, or_false] at hy
      rcases hy with rfl | rfl <;> exact absurd h subB_sym

theorem C29_example (ξ : ℝ → ℝ) (ρ : String → ℝ) (B : Blackboard) :
    eval (realInterp ξ) ρ (replaceSystemSymbols renDemo B).1 =
      eval (realInterp ξ) (fun s => ρ (renameOf (replaceSystemSymbols renDemo B).2.2 s)) renDemo :=
  (C29_replacement (realInterp ξ) renDemo B renDemo_idx).2.2.2.2 ρ

/-! ## C59: the blackboard after a replacement -/

/-- **C59 (partial).** If none of the chosen names is on the blackboard, then afterwards each new
name has the definition of the symbol it replaces, and every other symbol keeps its definition. -/
theorem C59_blackboard_partial {w : World} (hw : Reach w) (old new : String) {i : Nat}
    (hf : w.bb.find old = some i) (hn : w.bb.find new = none) :
    (w.bb.substitute old new).getDef new = w.bb.getDef old ∧
    (w.bb.substitute old new).find old = none ∧
    ∀ z, z ≠ old → z ≠ new → (w.bb.substitute old new).getDef z = w.bb.getDef z := by
  refine ⟨C26_rename hw old new hf hn, by rw [find_substitute _ _ _ i hf]; simp, ?_⟩
  intro z hz hz'
  unfold Blackboard.getDef
  rw [find_substitute _ _ _ i hf, if_neg hz]
  cases hz2 : w.bb.find z with
  | none => simp [hz']
  | some j =>
    have hlt := hw.inv.coh.valid z j hz2
    simp only [Blackboard.substitute, hf]
    rw [List.getElem?_append_left hlt]

/-- **C59 fails in general**: names are chosen by looking at one expression only, so replacing the
symbols of two expressions one after the other picks the name `a` twice; the second `a` then means
the first definition and the second definition is lost. -/
theorem C59_blackboard_clash_refuted :
    let B := (Blackboard.empty.insertDef (autoName 0) (.num 5)).insertDef (autoName 1) (.num 7)
    let r := replaceSystemSymbols (.sym (autoName 0)) B
    let r' := replaceSystemSymbols (.sym (autoName 1)) r.2.1
    r.1 = .sym "a" ∧ r.2.1.getDef "a" = .num 5 ∧
    r.2.1.getDef (autoName 1) = .num 7 ∧ r'.1 = .sym "a" ∧ r'.2.1.getDef "a" = .num 5 := by
  have n0 : autoName 0 = "symbol0" := by decide
  have n1 : autoName 1 = "symbol1" := by decide
  have i0 : isSystemGenerated "symbol0" = true := by decide
  have s0 : sysSyms (.sym "symbol0") = ["symbol0"] := by simp [sysSyms, symsOf, i0]
  have i1 : isSystemGenerated "symbol1" = true := by decide
  have s1 : sysSyms (.sym "symbol1") = ["symbol1"] := by simp [sysSyms, symsOf, i1]
  have g0 : goodSyms (.sym "symbol0") = [] := by simp [goodSyms, symsOf, i0]
  have g1 : goodSyms (.sym "symbol1") = [] := by simp [goodSyms, symsOf, i1]
  have nm : newSymbolName 0 = "a" := by decide
  simp [n0, n1, replaceSystemSymbols, s0, s1, g0, g1, replaceLoop, pickName, nm, substitute,
    Blackboard.substitute, Blackboard.find, Blackboard.insertDef, Blackboard.empty,
    Blackboard.indexInsert, Blackboard.getDef, Definition.new]

end Purrs
