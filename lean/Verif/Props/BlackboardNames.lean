import Verif.Props.BlackboardSem

/-!
# C28: names with the same number of digits

The names that GiNaC gives to unnamed symbols are in the order of their creation as long as the
number of digits does not change; hence the look-up works for every number of symbols within
such a range.
-/

namespace Purrs

open Blackboard Expr

theorem lex_append {l m : List Char} (h : l < m) (hl : l.length = m.length) (x y : List Char) :
    l ++ x < m ++ y := by
  induction l generalizing m with
  | nil => cases m with
    | nil => exact absurd h (by simp)
    | cons b m => simp at hl
  | cons a l ih => cases m with
    | nil => simp at hl
    | cons b m =>
      rw [List.cons_append, List.cons_append, List.cons_lt_cons_iff]
      rcases List.cons_lt_cons_iff.mp h with h | ⟨h0, h⟩
      · exact .inl h
      · exact .inr ⟨h0, ih h (by simpa using hl)⟩

theorem lex_left {m n : List Char} (h : m < n) (l : List Char) : l ++ m < l ++ n := by
  induction l with
  | nil => exact h
  | cons a l ih => exact List.cons_lt_cons_iff.mpr (.inr ⟨rfl, ih⟩)

theorem digitChar_lt : ∀ a b : Fin 10, a < b → Nat.digitChar a < Nat.digitChar b := by decide

/-- Numbers with the same number of digits are written in lexicographic order. -/
theorem digits_lt (b : ℕ) : ∀ a, a < b → (Nat.toDigits 10 a).length = (Nat.toDigits 10 b).length →
    Nat.toDigits 10 a < Nat.toDigits 10 b := by
  induction b using Nat.strong_induction_on with
  | _ b ih =>
    intro a hab hlen
    by_cases hb : b < 10
    · rw [Nat.toDigits_of_lt_base hb, Nat.toDigits_of_lt_base (hab.trans hb), List.cons_lt_cons_iff]
      exact .inl (digitChar_lt ⟨a, hab.trans hb⟩ ⟨b, hb⟩ hab)
    · have hb' : 10 ≤ b := by omega
      rw [Nat.toDigits_of_base_le (by norm_num) hb'] at hlen ⊢
      by_cases ha : a < 10
      · rw [Nat.toDigits_of_lt_base ha] at hlen
        have := Nat.length_toDigits_pos (b := 10) (n := b / 10)
        simp at hlen
      · have ha' : 10 ≤ a := by omega
        rw [Nat.toDigits_of_base_le (by norm_num) ha'] at hlen ⊢
        simp only [List.length_append, List.length_singleton, Nat.add_right_cancel_iff] at hlen
        rcases Nat.lt_or_ge (a / 10) (b / 10) with h | h
        · exact lex_append (ih (b / 10) (by omega) _ h hlen) hlen _ _
        · have : a / 10 = b / 10 := by omega
          rw [this]
          refine lex_left ?_ _
          rw [List.cons_lt_cons_iff]
          exact .inl (digitChar_lt ⟨a % 10, by omega⟩ ⟨b % 10, by omega⟩ (by
            show a % 10 < b % 10; omega))

theorem autoName_lt {a b : ℕ} (h : a < b) (hl : (autoName a).length = (autoName b).length) :
    autoName a ≤ autoName b := by
  have h1 : Nat.toDigits 10 a < Nat.toDigits 10 b := by
    apply digits_lt _ _ h
    have h2 : (autoName a).toList.length = (autoName b).toList.length := by
      rw [String.length_toList, String.length_toList]; exact hl
    simp only [autoName, String.toList_append, Nat.toList_repr, List.length_append] at h2
    omega
  have h3 : (autoName a).toList < (autoName b).toList := by
    simp only [autoName, String.toList_append, Nat.toList_repr]
    exact lex_left h1 _
  show ¬ (autoName b).toList < (autoName a).toList
  exact fun h4 => List.lt_asymm h3 h4

theorem mem_index_find {B : Blackboard} {z : String} (h : z ∈ B.index.map Prod.fst) : B.find z ≠ none := by
  rw [List.mem_map] at h
  obtain ⟨p, hp, rfl⟩ := h
  simp only [Blackboard.find, ne_eq, Option.map_eq_none_iff, List.find?_eq_none, not_forall]
  exact ⟨p, hp, by simp⟩

/-- **C28 (partial).**  In every history without renaming, however long, in which the names on
the blackboard have the same length, looking up an expression returns a symbol whose definition
is that expression.  Missing: names of different lengths, for which it fails. -/
theorem C28_find_symbol_same_length_partial {w : World} (h : Reach0 w)
    (hl : ∀ z z', w.bb.find z ≠ none → w.bb.find z' ≠ none → z.length = z'.length) (e : Expr) :
    ∃ s B', w.bb.findSymbol (autoName w.serial) e = .ok (s, B') ∧ B'.getDef s = e ∧
      ((∃ d ∈ w.bb.defs, d.rhs = e) → B' = w.bb) := by
  obtain ⟨ks, h1, h2, h3, h4⟩ := h.inOrder
  have hf : ∀ k ∈ ks, w.bb.find (autoName k) ≠ none := fun k hk =>
    mem_index_find (by rw [h3]; exact List.mem_map_of_mem hk)
  apply C28_find_symbol_partial _ _ _ h4 _ _ h.reach.auto_none
  · rw [h3]
    exact (h1.imp (fun hab => ne_of_lt hab)).map autoName (fun a b hab he => hab (autoName_inj he))
  · rw [h3]
    have : ks.Pairwise fun a b => autoName a ≤ autoName b := by
      refine List.Pairwise.imp_of_mem ?_ h1
      intro a b ha hb hab
      exact autoName_lt hab (hl _ _ (hf a ha) (hf b hb))
    exact List.pairwise_map.mpr this

/-- The serial numbers from `lo` on and below `hi` have the same number of digits. -/
def SameDigits (lo hi : ℕ) : Prop :=
  ∀ a b, lo ≤ a → a < hi → lo ≤ b → b < hi → (autoName a).length = (autoName b).length

theorem autoName_length {k d : ℕ} (h1 : 10 ^ d ≤ k) (h2 : k < 10 ^ (d + 1)) :
    (autoName k).length = d + 7 := by
  rw [← String.length_toList]
  simp only [autoName, String.toList_append, Nat.toList_repr, List.length_append]
  have h3 := (Nat.length_toDigits_le_iff (b := 10) (n := k) (k := d + 1) (by norm_num) (by omega)).mpr h2
  have h4 : d + 1 ≤ (Nat.toDigits 10 k).length := by
    rcases Nat.eq_zero_or_pos d with rfl | hd
    · exact Nat.length_toDigits_pos
    · by_contra hlt
      have := (Nat.length_toDigits_le_iff (b := 10) (n := k) (k := d) (by norm_num) hd).mp (by omega)
      omega
  have h5 : "symbol".toList.length = 6 := by decide
  omega

/-- The ranges without a change of the number of digits. -/
theorem sameDigits_pow (d : ℕ) : SameDigits (10 ^ d) (10 ^ (d + 1)) := fun a b h1 h2 h3 h4 => by
  rw [autoName_length h1 h2, autoName_length h3 h4]

theorem sameDigits_ten : SameDigits 0 10 := by
  intro a b _ h1 _ h2
  have : ∀ i j : Fin 10, (autoName i).length = (autoName j).length := by decide
  exact this ⟨a, h1⟩ ⟨b, h2⟩

theorem SameDigits.sub {lo hi lo' hi' : ℕ} (h : SameDigits lo hi) (h1 : lo ≤ lo') (h2 : hi' ≤ hi) :
    SameDigits lo' hi' := fun a b ha ha' hb hb' => h a b (h1.trans ha) (ha'.trans_le h2) (h1.trans hb) (hb'.trans_le h2)

end Purrs
