import Verif.Model.FactorizeGiac
import Verif.Props.BlackboardNames

/-!
# C162: `factorize_giac` returns two factors of the expression
-/

namespace Purrs
namespace Giac

open Expr Blackboard

variable {K : Type} [Field K]

/-! ## Specification -/

/-- The value of a giac tree. -/
def gval (I : Interp K) (ρ : String → K) : Gen → K
  | .int z => (z : K)
  | .frac p q => (p : K) / (q : K)
  | .idnt s => ρ s
  | .plus l => (l.map fun a => gval I ρ a).sum
  | .prod l => (l.map fun a => gval I ρ a).prod
  | .inv g => (gval I ρ g)⁻¹
  | .pow a b => I.pw (gval I ρ a) (gval I ρ b)
  | .call f g => I.fn f [gval I ρ g]

/-- What is asked of giac: its operations compute what they are named after, `factor` keeps
the value, and none of them invents an identifier. -/
structure Sound (I : Interp K) (L : Lib) : Prop where
  add : ∀ ρ a b, gval I ρ (L.add a b) = gval I ρ a + gval I ρ b
  mul : ∀ ρ a b, gval I ρ (L.mul a b) = gval I ρ a * gval I ρ b
  pow : ∀ ρ a b, gval I ρ (L.pow a b) = I.pw (gval I ρ a) (gval I ρ b)
  factor : ∀ ρ a, gval I ρ (L.factor a) = gval I ρ a
  add_ids : ∀ a b, idents (L.add a b) ⊆ idents a ++ idents b
  mul_ids : ∀ a b, idents (L.mul a b) ⊆ idents a ++ idents b
  pow_ids : ∀ a b, idents (L.pow a b) ⊆ idents a ++ idents b
  factor_ids : ∀ a, idents (L.factor a) ⊆ idents a

/-! ## Expressions without symbolic sums -/

/-- No symbolic sum or product, and all the symbols satisfy `P`. -/
def Plain (P : String → Prop) : Expr → Prop
  | .num _ => True
  | .const _ => True
  | .sym s => P s
  | .add l => ∀ a ∈ l, Plain P a
  | .mul l => ∀ a ∈ l, Plain P a
  | .pow b e => Plain P b ∧ Plain P e
  | .fn _ l => ∀ a ∈ l, Plain P a
  | .binder _ _ _ _ _ => False

variable {P Q : String → Prop}

theorem plain_addE {a b : Expr} (ha : Plain P a) (hb : Plain P b) : Plain P (addE a b) := by
  cases a <;> cases b <;> simp only [addE] <;> (try split) <;> (try split) <;> simp_all [Plain, or_imp]

theorem plain_mulE {a b : Expr} (ha : Plain P a) (hb : Plain P b) : Plain P (mulE a b) := by
  cases a <;> cases b <;> simp only [mulE] <;> (try split) <;> (try split) <;> simp_all [Plain, or_imp]

theorem plain_powE {a b : Expr} (ha : Plain P a) (hb : Plain P b) : Plain P (powE a b) := by
  cases a <;> cases b <;> simp only [powE] <;> (try split) <;> (try split) <;> (try split) <;>
    simp_all [Plain, or_imp]

theorem plain_mono (h : ∀ s, P s → Q s) {e : Expr} (he : Plain P e) : Plain Q e := by
  induction e using Expr.ind with
  | num q => simp [Plain]
  | const q => simp [Plain]
  | sym s => simp only [Plain] at he ⊢; exact h s he
  | add l ih => simp only [Plain] at he ⊢; exact fun a ha => ih a ha (he a ha)
  | mul l ih => simp only [Plain] at he ⊢; exact fun a ha => ih a ha (he a ha)
  | pow b e hb he' => simp only [Plain] at he ⊢; exact ⟨hb he.1, he' he.2⟩
  | fn f l ih => simp only [Plain] at he ⊢; exact fun a ha => ih a ha (he a ha)
  | binder k i a b c _ _ _ _ => simp [Plain] at he

theorem plain_sym {e : Expr} (he : Plain P e) {s : String} (h : Sub (.sym s) e) : P s := by
  induction e using Expr.ind with
  | num q => simp [sub_num] at h
  | const q => simp [sub_const] at h
  | sym t => rw [sub_sym] at h; simp only [Plain] at he; exact h ▸ he
  | add l ih =>
    simp only [Plain] at he; obtain ⟨a, h1, h2⟩ := sub_add.mp h; exact ih a h1 (he a h1) h2
  | mul l ih =>
    simp only [Plain] at he; obtain ⟨a, h1, h2⟩ := sub_mul.mp h; exact ih a h1 (he a h1) h2
  | pow b e hb he' =>
    simp only [Plain] at he
    rcases sub_pow.mp h with h | h
    · exact hb he.1 h
    · exact he' he.2 h
  | fn f l ih =>
    simp only [Plain] at he; obtain ⟨a, h1, h2⟩ := sub_fn.mp h; exact ih a h1 (he a h1) h2
  | binder k i a b c _ _ _ _ => simp [Plain] at he

theorem plain_with {e : Expr} (he : Plain P e) (h : ∀ s, Sub (.sym s) e → P s → Q s) : Plain Q e := by
  induction e using Expr.ind with
  | num q => simp [Plain]
  | const q => simp [Plain]
  | sym s => simp only [Plain] at he ⊢; exact h s (.refl _) he
  | add l ih => simp only [Plain] at he ⊢; exact fun a ha => ih a ha (he a ha) fun s hs => h s (.add ha hs)
  | mul l ih => simp only [Plain] at he ⊢; exact fun a ha => ih a ha (he a ha) fun s hs => h s (.mul ha hs)
  | pow b e hb he' =>
    simp only [Plain] at he ⊢
    exact ⟨hb he.1 fun s hs => h s (.powB hs), he' he.2 fun s hs => h s (.powE hs)⟩
  | fn f l ih => simp only [Plain] at he ⊢; exact fun a ha => ih a ha (he a ha) fun s hs => h s (.fn ha hs)
  | binder k i a b c _ _ _ _ => simp [Plain] at he

theorem plain_binder {e : Expr} (he : Plain P e) {k i a b c} (h : Sub (.binder k i a b c) e) : False := by
  induction e using Expr.ind with
  | num q => cases h
  | const q => cases h
  | sym t => cases h
  | add l ih => simp only [Plain] at he; cases h with | add h1 h2 => exact ih _ h1 (he _ h1) h2
  | mul l ih => simp only [Plain] at he; cases h with | mul h1 h2 => exact ih _ h1 (he _ h1) h2
  | pow b e hb he' =>
    simp only [Plain] at he
    cases h with
    | powB h => exact hb he.1 h
    | powE h => exact he' he.2 h
  | fn f l ih => simp only [Plain] at he; cases h with | fn h1 h2 => exact ih _ h1 (he _ h1) h2
  | binder k i a b c _ _ _ _ => simp [Plain] at he

theorem plain_apart (I : Interp K) (B : Blackboard) {e : Expr} (he : Plain P e) : IndicesApart I B e :=
  fun _ _ _ _ _ h => (plain_binder he h).elim

theorem plain_mapSyms {g : String → Expr} (hg : ∀ s, P s → Plain Q (g s)) {e : Expr} (he : Plain P e) :
    Plain Q (mapSyms g e) := by
  induction e using Expr.ind with
  | num q => simp [Plain, mapSyms]
  | const q => simp [Plain, mapSyms]
  | sym s => simp only [Plain] at he; simp only [mapSyms]; exact hg s he
  | add l ih =>
    simp only [Plain] at he; simp only [mapSyms]
    induction l with
    | nil => simp [Plain]
    | cons a l ihl =>
      exact plain_addE (ihl (fun a ha => ih a (.tail _ ha)) fun a ha => he a (.tail _ ha))
        (ih a (.head _) (he a (.head _)))
  | mul l ih =>
    simp only [Plain] at he; simp only [mapSyms]
    induction l with
    | nil => simp [Plain]
    | cons a l ihl =>
      exact plain_mulE (ihl (fun a ha => ih a (.tail _ ha)) fun a ha => he a (.tail _ ha))
        (ih a (.head _) (he a (.head _)))
  | pow b e hb he' =>
    simp only [Plain] at he; simp only [mapSyms]; exact plain_powE (hb he.1) (he' he.2)
  | fn f l ih =>
    simp only [Plain] at he; simp only [mapSyms, Plain]
    intro a ha
    obtain ⟨c, hc, rfl⟩ := List.mem_map.mp ha
    exact ih c hc (he c hc)
  | binder k i a b c _ _ _ _ => simp [Plain] at he

theorem plain_expand {look : String → Option ℕ} {rhs : List Expr} (hr : ∀ r ∈ rhs, Plain P r) (k : ℕ)
    {e : Expr} (he : Plain P e) : Plain P (expand look rhs k e) := by
  induction k using Nat.strong_induction_on generalizing e with
  | _ k ih =>
    rw [expand_eq]
    refine plain_mapSyms (fun s hs => ?_) he
    unfold expandSym
    split
    · split
      · rename_i hj
        split
        · rename_i r hr'
          exact ih _ hj (hr r (List.mem_of_getElem? hr'))
        · simpa [Plain] using hs
      · simpa [Plain] using hs
    · simpa [Plain] using hs

/-! ## The translation back -/

theorem back_spec (I : Interp K) (ρ : String → K) [CharZero K] (g : Gen) : ∀ e, back g = some e →
    eval I ρ e = gval I ρ g ∧ Plain (· ∈ idents g) e := by
  induction g using back.induct with
  | case1 z h => intro e he; simp [back, h] at he; subst he; simp [eval, gval, Plain]
  | case2 z h => intro e he; simp [back, h] at he
  | case3 p q h => intro e he; simp only [back, h, if_true, Option.some.injEq] at he; subst he; simp [eval, gval, Plain]
  | case4 p q h => intro e he; simp only [back, h] at he; cases he
  | case5 s => intro e he; simp only [back, Option.some.injEq] at he; subst he; simp [eval, gval, Plain, idents]
  | case6 l ih =>
    simp only [back]
    have key : ∀ m : List Gen, (∀ a ∈ m, a ∈ l) → ∀ e, m.foldr (fun a acc => acc.bind fun e =>
        (back a).map fun r => addE e r) (some (.num 0)) = some e →
        eval I ρ e = (m.map fun a => gval I ρ a).sum ∧ Plain (· ∈ m.flatMap fun a => idents a) e := by
      intro m
      induction m with
      | nil => intro _ e he; simp at he; subst he; simp [eval, Plain]
      | cons a m ihm =>
        intro hm e he
        simp only [List.foldr_cons, Option.bind_eq_some_iff, Option.map_eq_some_iff] at he
        obtain ⟨e1, h1, r, h2, rfl⟩ := he
        obtain ⟨h3, h4⟩ := ihm (fun b hb => hm b (.tail _ hb)) e1 h1
        obtain ⟨h5, h6⟩ := ih a (hm a (.head _)) r h2
        refine ⟨by rw [eval_addE, h3, h5]; simp [add_comm], plain_addE (plain_mono ?_ h4) (plain_mono ?_ h6)⟩
        · intro s hs; simp only [List.flatMap_cons, List.mem_append]; exact Or.inr hs
        · intro s hs; simp only [List.flatMap_cons, List.mem_append]; exact Or.inl hs
    intro e he
    have := key l (fun _ h => h) e he
    simpa only [gval, idents] using this
  | case7 l ih =>
    simp only [back]
    have key : ∀ m : List Gen, (∀ a ∈ m, a ∈ l) → ∀ e, m.foldr (fun a acc => acc.bind fun e =>
        (back a).map fun r => mulE e r) (some (.num 1)) = some e →
        eval I ρ e = (m.map fun a => gval I ρ a).prod ∧ Plain (· ∈ m.flatMap fun a => idents a) e := by
      intro m
      induction m with
      | nil => intro _ e he; simp at he; subst he; simp [eval, Plain]
      | cons a m ihm =>
        intro hm e he
        simp only [List.foldr_cons, Option.bind_eq_some_iff, Option.map_eq_some_iff] at he
        obtain ⟨e1, h1, r, h2, rfl⟩ := he
        obtain ⟨h3, h4⟩ := ihm (fun b hb => hm b (.tail _ hb)) e1 h1
        obtain ⟨h5, h6⟩ := ih a (hm a (.head _)) r h2
        refine ⟨by rw [eval_mulE, h3, h5]; simp [mul_comm], plain_mulE (plain_mono ?_ h4) (plain_mono ?_ h6)⟩
        · intro s hs; simp only [List.flatMap_cons, List.mem_append]; exact Or.inr hs
        · intro s hs; simp only [List.flatMap_cons, List.mem_append]; exact Or.inl hs
    intro e he
    have := key l (fun _ h => h) e he
    simpa only [gval, idents] using this
  | case8 g ih =>
    intro e he
    simp only [back, Option.map_eq_some_iff] at he
    obtain ⟨r, h1, rfl⟩ := he
    obtain ⟨h2, h3⟩ := ih r h1
    refine ⟨?_, plain_powE (by simpa only [idents] using h3) (by simp [Plain])⟩
    rw [eval_powE, h2]
    have h4 := I.pw_int (gval I ρ g) (-1)
    simp only [Int.cast_neg, Int.cast_one, zpow_neg, zpow_one] at h4
    simp only [eval, gval, Rat.cast_neg, Rat.cast_one]
    exact h4
  | case9 a b iha ihb =>
    intro e he
    simp only [back, Option.map_eq_some_iff, Option.bind_eq_some_iff] at he
    obtain ⟨r, h1, r', h2, rfl⟩ := he
    obtain ⟨h3, h4⟩ := iha r h1
    obtain ⟨h5, h6⟩ := ihb r' h2
    refine ⟨by rw [eval_powE, h3, h5, gval], plain_powE (plain_mono ?_ h4) (plain_mono ?_ h6)⟩
    · intro s hs; simp only [idents, List.mem_append]; exact Or.inl hs
    · intro s hs; simp only [idents, List.mem_append]; exact Or.inr hs
  | case10 f g ih =>
    intro e he
    simp only [back, Option.map_eq_some_iff] at he
    obtain ⟨r, h1, rfl⟩ := he
    obtain ⟨h2, h3⟩ := ih r h1
    refine ⟨by simp [eval, gval, h2], ?_⟩
    simp only [Plain, List.mem_singleton, forall_eq, idents]
    exact h3

/-! ## The split -/

theorem split_spec {I : Interp K} {L : Lib} (hL : Sound I L) (g : Gen) :
    (∀ ρ, gval I ρ (split L g).1 * gval I ρ (split L g).2 = gval I ρ g) ∧
    idents (split L g).1 ⊆ idents g ∧ idents (split L g).2 ⊆ idents g := by
  have one : ∀ g : Gen, (∀ ρ, gval I ρ (if isNumFactor g then (L.mul (.int 1) g, Gen.int 1) else (.int 1, L.mul (.int 1) g)).1
      * gval I ρ (if isNumFactor g then (L.mul (.int 1) g, Gen.int 1) else (.int 1, L.mul (.int 1) g)).2 = gval I ρ g) ∧
      idents (if isNumFactor g then (L.mul (.int 1) g, Gen.int 1) else (.int 1, L.mul (.int 1) g)).1 ⊆ idents g ∧
      idents (if isNumFactor g then (L.mul (.int 1) g, Gen.int 1) else (.int 1, L.mul (.int 1) g)).2 ⊆ idents g := by
    intro g
    have hm := hL.mul_ids (.int 1) g
    simp only [idents, List.nil_append] at hm
    split
    · exact ⟨fun ρ => by simp [hL.mul, gval], hm, by simp [idents]⟩
    · exact ⟨fun ρ => by simp [hL.mul, gval], by simp [idents], hm⟩
  cases g with
  | prod v =>
    simp only [split, gval, idents]
    induction v with
    | nil => simp [gval, idents]
    | cons a v ih =>
      obtain ⟨h1, h2, h3⟩ := ih
      simp only [List.foldr_cons]
      generalize v.foldr (fun a st => if isNumFactor a = true then (L.mul st.1 a, st.2)
        else (st.1, L.mul st.2 a)) (Gen.int 1, Gen.int 1) = st at *
      have sub : ∀ x, idents x ⊆ v.flatMap (fun a => idents a) →
          idents (L.mul x a) ⊆ (a :: v).flatMap fun a => idents a := by
        intro x hx s hs
        rcases List.mem_append.mp (hL.mul_ids _ _ hs) with h | h
        · simp only [List.flatMap_cons, List.mem_append]; exact Or.inr (hx h)
        · simp only [List.flatMap_cons, List.mem_append]; exact Or.inl h
      have sub' : ∀ x, idents x ⊆ v.flatMap (fun a => idents a) →
          idents x ⊆ (a :: v).flatMap fun a => idents a := by
        intro x hx s hs
        simp only [List.flatMap_cons, List.mem_append]; exact Or.inr (hx hs)
      split
      · refine ⟨fun ρ => ?_, sub _ h2, sub' _ h3⟩
        simp only [hL.mul, List.map_cons, List.prod_cons, ← h1 ρ]; ring
      · refine ⟨fun ρ => ?_, sub' _ h2, sub _ h3⟩
        simp only [hL.mul, List.map_cons, List.prod_cons, ← h1 ρ]; ring
  | int z => exact one _
  | frac p q => exact one _
  | idnt s => exact one _
  | plus l => exact one _
  | inv g => exact one _
  | pow a b => exact one _
  | call f g => exact one _

/-! ## The invariant of the translation -/

/-- The worlds in which the translation runs. -/
def Nice (w : World) : Prop := Reach0 w ∧ ∀ r ∈ rhss w.bb, Plain (Old w.serial) r

/-- `w'` has the definitions of `w` and possibly more, under new names. -/
structure Ext (w w' : World) : Prop where
  keep : ∀ z i, w.bb.find z = some i → w'.bb.find z = some i ∧ (rhss w'.bb)[i]? = (rhss w.bb)[i]?
  names : ∀ z, w'.bb.find z ≠ none → w.bb.find z ≠ none ∨ ∃ k, w.serial ≤ k ∧ z = autoName k
  le : w.serial ≤ w'.serial

theorem Ext.refl (w : World) : Ext w w := ⟨fun _ _ h => ⟨h, rfl⟩, fun _ h => .inl h, le_refl _⟩

theorem Ext.trans {u v w : World} (h : Ext u v) (h' : Ext v w) : Ext u w := by
  refine ⟨fun z i hz => ?_, fun z hz => ?_, h.le.trans h'.le⟩
  · obtain ⟨h1, h2⟩ := h.keep z i hz
    obtain ⟨h3, h4⟩ := h'.keep z i h1
    exact ⟨h3, h4.trans h2⟩
  · rcases h'.names z hz with h1 | ⟨k, h1, h2⟩
    · exact h.names z h1
    · exact .inr ⟨k, h.le.trans h1, h2⟩

theorem Ext.found {w w' : World} (h : Ext w w') {s : String} (hs : w.bb.find s ≠ none) : w'.bb.find s ≠ none := by
  obtain ⟨i, hi⟩ := Option.ne_none_iff_exists'.mp hs
  rw [(h.keep s i hi).1]; simp

theorem Ext.consistent {I : Interp K} {w w' : World} (h : Ext w w') {ρ : String → K}
    (hρ : Consistent I w'.bb ρ) : Consistent I w.bb ρ := by
  intro z i e hz he
  obtain ⟨h1, h2⟩ := h.keep z i hz
  exact hρ z i e h1 (h2.trans he)

theorem OldExpr.mono' {n m : ℕ} (h : n ≤ m) {e : Expr} (he : OldExpr n e) : OldExpr m e :=
  fun s hs => (he s hs).mono h

theorem Nice.skip {w : World} (h : Nice w) {m : ℕ} (hm : w.serial ≤ m) : Nice ⟨w.bb, m⟩ := by
  obtain ⟨k, rfl⟩ := Nat.exists_eq_add_of_le hm
  induction k with
  | zero => exact h
  | succ k ih =>
    obtain ⟨h1, h2⟩ := ih (by omega)
    exact ⟨.step (w := ⟨w.bb, w.serial + k⟩) .newSymbol h1 trivial (by simp) rfl,
      fun r hr => plain_mono (fun s hs => Old.mono (by simp only; omega) hs) (h2 r hr)⟩

theorem Ext.skip {w : World} {m : ℕ} (hm : w.serial ≤ m) : Ext w ⟨w.bb, m⟩ :=
  ⟨fun _ _ h => ⟨h, rfl⟩, fun _ h => .inl h, hm⟩

theorem nice_empty (n : ℕ) : Nice ⟨Blackboard.empty, n⟩ :=
  Nice.skip (w := ⟨Blackboard.empty, 0⟩) ⟨.init, by simp [rhss, Blackboard.empty]⟩ (Nat.zero_le _)

/-- All the names on the blackboard, and all those made up to the serial number `m`, have the
same length. -/
def U (w : World) (m : ℕ) : Prop :=
  ∃ lo, lo ≤ w.serial ∧ SameDigits lo m ∧ ∀ z, w.bb.find z ≠ none → ∃ k, lo ≤ k ∧ z = autoName k

theorem U.mono {w : World} {m m' : ℕ} (h : U w m) (hm : m' ≤ m) : U w m' :=
  let ⟨lo, h1, h2, h3⟩ := h
  ⟨lo, h1, h2.sub (le_refl _) hm, h3⟩

theorem U.ext {w w' : World} {m : ℕ} (h : U w m) (he : Ext w w') : U w' m := by
  obtain ⟨lo, h1, h2, h3⟩ := h
  refine ⟨lo, h1.trans he.le, h2, fun z hz => ?_⟩
  rcases he.names z hz with h | ⟨k, hk, rfl⟩
  · exact h3 z h
  · exact ⟨k, h1.trans hk, rfl⟩

theorem U.digits {w : World} {m : ℕ} (h : U w m) : SameDigits w.serial m :=
  let ⟨_, h1, h2, _⟩ := h
  h2.sub h1 (le_refl _)

theorem U.empty {n m : ℕ} (h : SameDigits n m) : U ⟨Blackboard.empty, n⟩ m :=
  ⟨n, le_refl _, h, fun z hz => absurd (by simp [Blackboard.find, Blackboard.empty]) hz⟩

/-- What a translation guarantees. -/
def TSpec (I : Interp K) (e : Expr) (w : World) (g : Gen) (w' : World) : Prop :=
  w.serial ≤ w'.serial ∧ (Nice w → OldExpr w.serial e → U w w'.serial →
    Nice w' ∧ Ext w w' ∧ (∀ s ∈ idents g, w'.bb.find s ≠ none) ∧
    (∀ ρ, Consistent I w'.bb ρ → gval I ρ g = eval I ρ e) ∧
    ∀ P : String → Prop, (∀ r ∈ rhss w.bb, Plain P r) → (∀ s, Sub (.sym s) e → P s) →
      ∀ r ∈ rhss w'.bb, Plain P r)

/-- What a factorization guarantees. -/
def FSpec (I : Interp K) (n : ℕ) (e a b : Expr) (n' : ℕ) : Prop :=
  n ≤ n' ∧ (OldExpr n e → SameDigits n n' → (∀ ρ, eval I ρ a * eval I ρ b = eval I ρ e) ∧
    Plain (fun s => Sub (.sym s) e) a ∧ Plain (fun s => Sub (.sym s) e) b)

theorem findLoop_mem {e : Expr} {ds : List Definition} {ns : List String} {s : String}
    (h : findLoop e ds ns = .ok (some s)) : s ∈ ns := by
  induction ds generalizing ns with
  | nil => simp [findLoop] at h
  | cons d ds ih =>
    cases ns with
    | nil => simp [findLoop] at h
    | cons n ns =>
      simp only [findLoop] at h
      split at h
      · simp at h; simp [h]
      · exact .tail _ (ih h)

theorem mem_sorted_find {B : Blackboard} {s : String} (h : s ∈ B.sortedNames) : B.find s ≠ none := by
  unfold sortedNames at h
  rw [List.mem_mergeSort, List.mem_map] at h
  obtain ⟨p, hp, rfl⟩ := h
  simp only [Blackboard.find, ne_eq, Option.map_eq_none_iff, List.find?_eq_none, not_forall]
  exact ⟨p, hp, by simp⟩

theorem lookup_spec (I : Interp K) {e : Expr} (w : World) {g : Gen} {w' : World} (h : lookup w e = some (g, w')) :
    w.serial ≤ w'.serial ∧ (Nice w → Plain (Old w.serial) e → U w w'.serial →
    Nice w' ∧ Ext w w' ∧ (∀ s ∈ idents g, w'.bb.find s ≠ none) ∧
    (∀ ρ, Consistent I w'.bb ρ → gval I ρ g = eval I ρ e) ∧
    ∀ P : String → Prop, (∀ r ∈ rhss w.bb, Plain P r) → Plain P e → ∀ r ∈ rhss w'.bb, Plain P r) := by
  unfold lookup at h
  split at h
  case h_2 => cases h
  rename_i r hr
  simp only [Option.some.injEq, Prod.mk.injEq] at h
  obtain ⟨rfl, rfl⟩ := h
  refine ⟨Nat.le_succ _, fun hn he h10 => ?_⟩
  obtain ⟨lo, u1, u2, u3⟩ := h10
  have hlen : ∀ z z', w.bb.find z ≠ none → w.bb.find z' ≠ none → z.length = z'.length := by
    intro z z' hz hz'
    have lt : ∀ k, w.bb.find (autoName k) ≠ none → k < w.serial := by
      intro k hk
      obtain ⟨i, hi⟩ := Option.ne_none_iff_exists'.mp hk
      exact hn.1.reach.inv.names _ i hi k rfl
    obtain ⟨k, hk, rfl⟩ := u3 z hz
    obtain ⟨k', hk', rfl⟩ := u3 z' hz'
    exact u2 k k' hk (Nat.lt_succ_of_lt (lt k hz)) hk' (Nat.lt_succ_of_lt (lt k' hz'))
  obtain ⟨s, B', h1, h2, _⟩ := C28_find_symbol_same_length_partial hn.1 hlen e
  rw [hr] at h1
  simp only [Outcome.ok.injEq] at h1
  subst h1
  have hstep : Reach0 ⟨B', w.serial + 1⟩ :=
    .step (.find e) hn.1 (fun s hs => plain_sym he hs) (by simp) (by simp [World.step, hr])
  -- the two outcomes of the scan
  have two : (B' = w.bb ∧ w.bb.find s ≠ none) ∨ (B' = w.bb.insertDef (autoName w.serial) e ∧ s = autoName w.serial) := by
    unfold findSymbol at hr
    split at hr
    · rename_i s' hs'
      simp only [Outcome.ok.injEq, Prod.mk.injEq] at hr
      obtain ⟨rfl, rfl⟩ := hr
      exact .inl ⟨rfl, mem_sorted_find (findLoop_mem hs')⟩
    · simp only [Outcome.ok.injEq, Prod.mk.injEq] at hr
      obtain ⟨rfl, rfl⟩ := hr
      exact .inr ⟨rfl, rfl⟩
    · cases hr
    · cases hr
  have hfs : B'.find s ≠ none := by
    rcases two with ⟨rfl, h⟩ | ⟨rfl, rfl⟩
    · exact h
    · rw [find_insertDef]; split <;> simp
  have hcoh := hstep.reach.inv.coh
  have hv := hn.1.reach.inv.coh.valid
  refine ⟨⟨hstep, ?_⟩, ?_, by simpa [idents] using hfs, ?_, ?_⟩
  · intro r hr'
    rcases two with ⟨rfl, -⟩ | ⟨rfl, -⟩
    · exact plain_mono (fun s hs => Old.mono (Nat.le_succ _) hs) (hn.2 r hr')
    · rw [rhss_insertDef, List.mem_append, List.mem_singleton] at hr'
      rcases hr' with hr' | rfl
      · exact plain_mono (fun s hs => Old.mono (Nat.le_succ _) hs) (hn.2 r hr')
      · exact plain_mono (fun s hs => Old.mono (Nat.le_succ _) hs) he
  · rcases two with ⟨rfl, -⟩ | ⟨rfl, -⟩
    · exact Ext.skip (w := w) (Nat.le_succ _)
    · refine ⟨fun z i hz => ⟨by simp only [find_insertDef, hz], ?_⟩, fun z hz => ?_, Nat.le_succ _⟩
      · simp only [rhss_insertDef]
        rw [List.getElem?_append_left (by simpa [rhss] using hv z i hz)]
      · simp only [find_insertDef] at hz
        split at hz
        · rename_i h; exact .inl (by rw [h]; simp)
        · split at hz
          · rename_i h; exact .inr ⟨w.serial, le_refl _, h⟩
          · exact absurd rfl hz
  · intro ρ hρ
    obtain ⟨i, hi⟩ := Option.ne_none_iff_exists'.mp hfs
    have hlt := hcoh.valid s i hi
    simp only at hlt
    have hget : (rhss B')[i]? = some B'.defs[i].rhs := by simp [rhss, hlt]
    have h3 := getDef_of hi hget
    simp only [gval]
    rw [h2] at h3
    exact hρ s i e hi (by rw [hget, h3])
  · intro P hP hPe r hr'
    rcases two with ⟨rfl, -⟩ | ⟨rfl, -⟩
    · exact hP r hr'
    · rw [rhss_insertDef, List.mem_append, List.mem_singleton] at hr'
      rcases hr' with hr' | rfl
      · exact hP r hr'
      · exact hPe

/-- A factorization with a good translation is good. -/
theorem factWith_spec [CharZero K] {I : Interp K} {L : Lib} (hL : Sound I L)
    {tr : World → Expr → Option (Gen × World)}
    (htr : ∀ e w g w', tr w e = some (g, w') → TSpec I e w g w') {n : ℕ} {e a b : Expr} {n' : ℕ}
    (h : factWith L tr n e = some (a, b, n')) : FSpec I n e a b n' := by
  simp only [factWith, Option.bind_eq_some_iff, Option.map_eq_some_iff, Prod.mk.injEq] at h
  obtain ⟨⟨g, w⟩, h1, a0, ha0, b0, hb0, ⟨a1, B1⟩, hra, ⟨b1, B2⟩, hrb, rfl, rfl, rfl⟩ := h
  obtain ⟨hle, hsp⟩ := htr _ _ _ _ h1
  simp only at hle ha0 hb0 hra hrb
  refine ⟨by simp only; omega, fun he h10 => ?_⟩
  simp only at h10
  obtain ⟨hnice, hext, hids, hval, hP⟩ := hsp (nice_empty n) he (U.empty (h10.sub (le_refl _) (by omega)))
  have hrhs := hP (fun s => Sub (.sym s) e) (by simp [rhss, Blackboard.empty]) fun s hs => hs
  obtain ⟨sv, s1, s2⟩ := split_spec hL (L.factor g)
  have hr := hnice.1.reach
  have pa : Plain (fun s => w.bb.find s ≠ none) a0 :=
    plain_mono (fun s hs => hids s (hL.factor_ids _ (s1 hs))) (back_spec I (fun _ => 0) _ a0 ha0).2
  have pb : Plain (fun s => w.bb.find s ≠ none) b0 :=
    plain_mono (fun s hs => hids s (hL.factor_ids _ (s2 hs))) (back_spec I (fun _ => 0) _ b0 hb0).2
  have old : ∀ s, w.bb.find s ≠ none → Old w.serial s := by
    intro s hs
    obtain ⟨i, hi⟩ := Option.ne_none_iff_exists'.mp hs
    exact hr.inv.names s i hi
  have oa := plain_mono old pa
  have ob := plain_mono old pb
  -- the two rewritings
  obtain ⟨C, hC, hsame⟩ := C27_rewrite_not_stale hr a0
  rw [hC] at hra
  simp only [Option.some.injEq, Prod.mk.injEq] at hra
  obtain ⟨ra, rfl⟩ := hra
  have hr1 : Reach ⟨C, w.serial⟩ :=
    .step (.rewrite a0) hr (fun s hs => plain_sym oa hs) (by simp [World.step, hC])
  have hlen : C.defs.length = w.bb.defs.length := by
    have := congrArg List.length hsame.2.2; simpa [rhss] using this
  obtain ⟨D, hD, -⟩ := C27_rewrite_not_stale hr1 b0
  simp only [hlen, hsame.find, hsame.2.2] at hD
  rw [hD] at hrb
  simp only [Option.some.injEq, Prod.mk.injEq] at hrb
  obtain ⟨rb, -⟩ := hrb
  have left : ∀ c0, Plain (fun s => w.bb.find s ≠ none) c0 →
      Plain (fun s => Sub (.sym s) e) (expand w.bb.find (rhss w.bb) w.bb.defs.length c0) := by
    intro c0 hc
    have h1 : Plain (fun s => Sub (.sym s) e ∨ w.bb.find s ≠ none)
        (expand w.bb.find (rhss w.bb) w.bb.defs.length c0) :=
      plain_expand (fun r hr' => plain_mono (fun s hs => Or.inl hs) (hrhs r hr')) _
        (plain_mono (fun s hs => Or.inr hs) hc)
    refine plain_with h1 fun s hs h2 => ?_
    rcases h2 with h2 | h2
    · exact h2
    · exact absurd (no_defined_symbol w.bb hr.inv.coh _ c0 (hr.inv.coh.below c0) s hs) h2
  refine ⟨fun ρ => ?_, ra ▸ left a0 pa, rb ▸ left b0 pb⟩
  obtain ⟨σ, hσ, hag⟩ := C26_consistent_exists hr I ρ
  have value : ∀ c0, Plain (fun s => w.bb.find s ≠ none) c0 →
      eval I ρ (expand w.bb.find (rhss w.bb) w.bb.defs.length c0) = eval I σ c0 := by
    intro c0 hc
    rw [← eval_expand I w.bb (fun r hr' => plain_apart I _ (hnice.2 r hr')) _ c0 (plain_apart I _ hc) σ hσ]
    apply eval_congr
    intro s hs
    exact (hag s (no_defined_symbol w.bb hr.inv.coh _ c0 (hr.inv.coh.below c0) s hs)).symm
  rw [← ra, ← rb, value a0 pa, value b0 pb, (back_spec I σ _ a0 ha0).1, (back_spec I σ _ b0 hb0).1, sv,
    hL.factor, hval σ hσ]
  apply eval_congr
  intro s hs
  apply hag
  by_contra hne
  rcases hext.names s hne with h | ⟨k, hk, rfl⟩
  · exact h (by simp [Blackboard.find, Blackboard.empty])
  · have := he _ hs k rfl
    simp only at hk; omega

/-! ## The translation -/

/-- The loop over the operands of a sum or a product. -/
theorem fold_spec {I : Interp K} {tr : World → Expr → Option (Gen × World)}
    (htr : ∀ e w g w', tr w e = some (g, w') → TSpec I e w g w')
    (op : Gen → Gen → Gen) (z : Gen) (hz : idents z = []) (hid : ∀ a b, idents (op a b) ⊆ idents a ++ idents b)
    (f : K → K → K) (hop : ∀ ρ a b, gval I ρ (op a b) = f (gval I ρ a) (gval I ρ b))
    (w : World) (l : List Expr) : ∀ g w',
    l.foldr (fun a acc => acc.bind fun st => (tr st.2 a).map fun r => (op st.1 r.1, r.2)) (some (z, w)) = some (g, w') →
    w.serial ≤ w'.serial ∧ (Nice w → (∀ a ∈ l, OldExpr w.serial a) → U w w'.serial →
      Nice w' ∧ Ext w w' ∧ (∀ s ∈ idents g, w'.bb.find s ≠ none) ∧
      (∀ ρ, Consistent I w'.bb ρ → gval I ρ g = l.foldr (fun a acc => f acc (eval I ρ a)) (gval I ρ z)) ∧
      ∀ P : String → Prop, (∀ r ∈ rhss w.bb, Plain P r) → (∀ a ∈ l, ∀ s, Sub (.sym s) a → P s) →
        ∀ r ∈ rhss w'.bb, Plain P r) := by
  induction l with
  | nil =>
    intro g w' h
    simp only [List.foldr_nil, Option.some.injEq, Prod.mk.injEq] at h
    obtain ⟨rfl, rfl⟩ := h
    exact ⟨le_refl _, fun hn _ _ => ⟨hn, .refl _, by simp [hz], fun ρ _ => rfl, fun P hP _ => hP⟩⟩
  | cons a l ih =>
    intro g w' h
    simp only [List.foldr_cons, Option.bind_eq_some_iff, Option.map_eq_some_iff, Prod.mk.injEq] at h
    obtain ⟨⟨g1, w1⟩, h1, ⟨g2, w2⟩, h2, rfl, rfl⟩ := h
    obtain ⟨l1, k1⟩ := ih g1 w1 h1
    obtain ⟨l2, k2⟩ := htr _ _ _ _ h2
    simp only at l2
    refine ⟨l1.trans l2, fun hn ho h10 => ?_⟩
    obtain ⟨n1, e1, i1, v1, t1⟩ := k1 hn (fun b hb => ho b (.tail _ hb)) (h10.mono l2)
    obtain ⟨n2, e2, i2, v2, t2⟩ := k2 n1 (OldExpr.mono' l1 (ho a (.head _))) (h10.ext e1)
    refine ⟨n2, e1.trans e2, fun s hs => ?_, fun ρ hρ => ?_, fun P hP hl =>
      t2 P (t1 P hP fun b hb => hl b (.tail _ hb)) (hl a (.head _))⟩
    · rcases List.mem_append.mp (hid _ _ hs) with h | h
      · exact e2.found (i1 s h)
      · exact i2 s h
    · rw [hop, v1 ρ (e2.consistent hρ), v2 ρ hρ]; rfl

/-- The loop over the arguments of a function. -/
theorem args_spec [CharZero K] {I : Interp K} {L : Lib} (hL : Sound I L)
    {tr : World → Expr → Option (Gen × World)}
    (htr : ∀ e w g w', tr w e = some (g, w') → TSpec I e w g w') (l : List Expr) :
    ∀ (acc : List Expr) (n : ℕ) (r : List Expr) (n' : ℕ),
    l.foldl (fun acc a => acc.bind fun st =>
        (factWith L tr st.2 a).map fun r => (st.1 ++ [mulE r.1 r.2.1], r.2.2)) (some (acc, n)) = some (r, n') →
    n ≤ n' ∧ ((∀ a ∈ l, OldExpr n a) → SameDigits n n' → ∀ P : String → Prop,
      (∀ a ∈ acc, Plain P a) → (∀ a ∈ l, ∀ s, Sub (.sym s) a → P s) → (∀ a ∈ r, Plain P a) ∧
      ∀ ρ, r.map (fun a => eval I ρ a) = acc.map (fun a => eval I ρ a) ++ l.map fun a => eval I ρ a) := by
  induction l with
  | nil =>
    intro acc n r n' h
    simp only [List.foldl_nil, Option.some.injEq, Prod.mk.injEq] at h
    obtain ⟨rfl, rfl⟩ := h
    exact ⟨le_refl _, fun _ _ P ha _ => ⟨ha, fun ρ => by simp⟩⟩
  | cons a l ih =>
    intro acc n r n' h
    simp only [List.foldl_cons, Option.bind_some] at h
    cases hf : factWith L tr n a with
    | none =>
      rw [hf] at h
      simp only [Option.map_none] at h
      exfalso
      clear hf ih
      induction l with
      | nil => simp at h
      | cons b l ihl => simp only [List.foldl_cons, Option.bind_none] at h; exact ihl h
    | some t =>
      obtain ⟨p, q, n1⟩ := t
      rw [hf] at h
      simp only [Option.map_some] at h
      obtain ⟨l1, k1⟩ := factWith_spec hL htr hf
      obtain ⟨l2, k2⟩ := ih _ _ _ _ h
      refine ⟨l1.trans l2, fun ho h10 P ha hl => ?_⟩
      obtain ⟨v1, p1, p2⟩ := k1 (ho a (.head _)) (h10.sub (le_refl _) l2)
      obtain ⟨p3, v3⟩ := k2 (fun b hb => OldExpr.mono' l1 (ho b (.tail _ hb))) (h10.sub l1 (le_refl _)) P (by
        intro b hb
        rcases List.mem_append.mp hb with hb | hb
        · exact ha b hb
        · rw [List.mem_singleton.mp hb]
          exact plain_mono (fun s hs => hl a (.head _) s hs) (plain_mulE p1 p2))
        fun b hb => hl b (.tail _ hb)
      refine ⟨p3, fun ρ => ?_⟩
      rw [v3 ρ]
      simp [eval_mulE, v1 ρ]

theorem fwd_spec [CharZero K] {I : Interp K} {L : Lib} (hL : Sound I L) (fuel : ℕ) :
    ∀ e w g w', fwd L fuel w e = some (g, w') → TSpec I e w g w' := by
  induction fuel with
  | zero => intro e w g w' h; simp [fwd] at h
  | succ fuel ih =>
    intro e w g w' h
    cases e with
    | add l =>
      simp only [fwd] at h
      obtain ⟨l1, k1⟩ := fold_spec ih L.add (.int 0) (by simp [idents]) hL.add_ids (· + ·) hL.add w l g w' h
      refine ⟨l1, fun hn ho h10 => ?_⟩
      obtain ⟨n1, e1, i1, v1, t1⟩ := k1 hn (fun a ha s hs => ho s (.add ha hs)) h10
      refine ⟨n1, e1, i1, fun ρ hρ => ?_, fun P hP he => t1 P hP fun a ha s hs => he s (.add ha hs)⟩
      rw [v1 ρ hρ, eval]
      clear h k1 ho i1 v1 t1
      induction l with
      | nil => simp [gval]
      | cons a l ihl => simp only [List.foldr_cons, List.map_cons, List.sum_cons, ihl]; ring
    | mul l =>
      simp only [fwd] at h
      obtain ⟨l1, k1⟩ := fold_spec ih L.mul (.int 1) (by simp [idents]) hL.mul_ids (· * ·) hL.mul w l g w' h
      refine ⟨l1, fun hn ho h10 => ?_⟩
      obtain ⟨n1, e1, i1, v1, t1⟩ := k1 hn (fun a ha s hs => ho s (.mul ha hs)) h10
      refine ⟨n1, e1, i1, fun ρ hρ => ?_, fun P hP he => t1 P hP fun a ha s hs => he s (.mul ha hs)⟩
      rw [v1 ρ hρ, eval]
      clear h k1 ho i1 v1 t1
      induction l with
      | nil => simp [gval]
      | cons a l ihl => simp only [List.foldr_cons, List.map_cons, List.prod_cons, ihl]; ring
    | pow b x =>
      simp only [fwd, Option.bind_eq_some_iff, Option.map_eq_some_iff, Prod.mk.injEq] at h
      obtain ⟨⟨g1, w1⟩, h1, ⟨g2, w2⟩, h2, rfl, rfl⟩ := h
      obtain ⟨l1, k1⟩ := ih _ _ _ _ h1
      obtain ⟨l2, k2⟩ := ih _ _ _ _ h2
      simp only at l2
      refine ⟨l1.trans l2, fun hn ho h10 => ?_⟩
      obtain ⟨n1, e1, i1, v1, t1⟩ := k1 hn (fun s hs => ho s (.powB hs)) (h10.mono l2)
      obtain ⟨n2, e2, i2, v2, t2⟩ := k2 n1 (OldExpr.mono' l1 fun s hs => ho s (.powE hs)) (h10.ext e1)
      refine ⟨n2, e1.trans e2, fun s hs => ?_, fun ρ hρ => ?_, fun P hP he =>
        t2 P (t1 P hP fun s hs => he s (.powB hs)) fun s hs => he s (.powE hs)⟩
      · rcases List.mem_append.mp (hL.pow_ids _ _ hs) with h | h
        · exact e2.found (i1 s h)
        · exact i2 s h
      · rw [hL.pow, v1 ρ (e2.consistent hρ), v2 ρ hρ, eval]
    | binder k i a b c => simp [fwd] at h
    | sym s =>
      simp only [fwd] at h
      obtain ⟨l1, k1⟩ := lookup_spec I w h
      exact ⟨l1, fun hn ho h10 => by
        obtain ⟨n1, e1, i1, v1, t1⟩ := k1 hn (by simpa only [Plain] using ho s (.refl _)) h10
        exact ⟨n1, e1, i1, v1, fun P hP he => t1 P hP (by simpa only [Plain] using he s (.refl _))⟩⟩
    | const s =>
      simp only [fwd] at h
      obtain ⟨l1, k1⟩ := lookup_spec I w h
      exact ⟨l1, fun hn ho h10 => by
        obtain ⟨n1, e1, i1, v1, t1⟩ := k1 hn (by simp only [Plain]) h10
        exact ⟨n1, e1, i1, v1, fun P hP _ => t1 P hP (by simp only [Plain])⟩⟩
    | num q =>
      simp only [fwd] at h
      split at h
      · rename_i hd
        split at h
        · simp only [Option.some.injEq, Prod.mk.injEq] at h
          obtain ⟨rfl, rfl⟩ := h
          refine ⟨le_refl _, fun hn _ _ => ⟨hn, .refl _, by simp [idents], fun ρ _ => ?_, fun P hP _ => hP⟩⟩
          have : (q : ℚ) = (q.num : ℚ) := ((Rat.den_eq_one_iff q).mp hd).symm
          rw [eval, gval, this]; simp
        · cases h
      · split at h
        · simp only [Option.some.injEq, Prod.mk.injEq] at h
          obtain ⟨rfl, rfl⟩ := h
          refine ⟨le_refl _, fun hn _ _ => ⟨hn, .refl _, by simp [idents], fun ρ _ => ?_, fun P hP _ => hP⟩⟩
          rw [eval, gval, Rat.cast_def]; simp
        · cases h
    | fn f l =>
      have many : ∀ l, (l.foldl (fun acc a => acc.bind fun st =>
          (factWith L (fwd L fuel) st.2 a).map fun r => (st.1 ++ [mulE r.1 r.2.1], r.2.2))
          (some ([], w.serial))).bind (fun st => lookup ⟨w.bb, st.2⟩ (.fn f st.1)) = some (g, w') →
          TSpec I (.fn f l) w g w' := by
        intro l h
        simp only [Option.bind_eq_some_iff] at h
        obtain ⟨⟨r, m⟩, h1, h2⟩ := h
        obtain ⟨l1, k1⟩ := args_spec hL ih l [] w.serial r m h1
        obtain ⟨l2, k2⟩ := lookup_spec I _ h2
        simp only at l2
        refine ⟨l1.trans l2, fun hn ho h10 => ?_⟩
        have k3 := k1 (fun a ha s hs => ho s (.fn ha hs)) (h10.mono l2).digits
        obtain ⟨p1, v1⟩ := k3 (Old m) (by simp) fun a ha s hs => (ho s (.fn ha hs)).mono l1
        obtain ⟨n2, e2, i2, v2, t2⟩ := k2 (hn.skip l1) (by simpa only [Plain] using p1) (h10.ext (Ext.skip l1))
        refine ⟨n2, (Ext.skip l1).trans e2, i2, fun ρ hρ => ?_, fun P hP he => t2 P hP (by
          simpa only [Plain] using (k3 P (by simp) fun a ha s hs => he s (.fn ha hs)).1)⟩
        rw [v2 ρ hρ, eval, eval]
        congr 1
        simpa using v1 ρ
      match l with
      | [] => simp only [fwd] at h; exact many _ h
      | [a] =>
        simp only [fwd, Option.bind_eq_some_iff, Option.map_eq_some_iff, Prod.mk.injEq] at h
        obtain ⟨⟨p, q, n1⟩, h1, ⟨g2, w2⟩, h2, rfl, rfl⟩ := h
        obtain ⟨l1, k1⟩ := factWith_spec hL ih h1
        obtain ⟨l2, k2⟩ := ih _ _ _ _ h2
        simp only at l2
        refine ⟨l1.trans l2, fun hn ho h10 => ?_⟩
        obtain ⟨v1, p1, p2⟩ := k1 (fun s hs => ho s (.fn (.head _) hs)) (h10.mono l2).digits
        have p3 : ∀ s, Sub (.sym s) (mulE p q) → Sub (.sym s) a := fun s hs => plain_sym (plain_mulE p1 p2) hs
        obtain ⟨n2, e2, i2, v2, t2⟩ := k2 (hn.skip l1)
          (fun s hs => (ho s (.fn (.head _) (p3 s hs))).mono l1) (h10.ext (Ext.skip l1))
        refine ⟨n2, (Ext.skip l1).trans e2, by simpa only [idents] using i2, fun ρ hρ => ?_,
          fun P hP he => t2 P hP fun s hs => he s (.fn (.head _) (p3 s hs))⟩
        simp only [gval, v2 ρ hρ, eval, eval_mulE, v1 ρ, List.map_cons, List.map_nil]
      | a :: b :: l => simp only [fwd] at h; exact many _ h

/-! ## C162 -/

/-- **C162 (partial).**  With a correct library, the product of the two results of
`factorize_giac` has the value of the expression, and they contain only symbols of the
expression: none of the local blackboard is left.  Missing: calls during which the number of digits
in the names of the unnamed symbols changes, for which the look-up on the blackboard fails (see
`C162_factorize_refuted`), and symbolic sums and products. -/
theorem C162_factorize_partial [CharZero K] (I : Interp K) (L : Lib) (hL : Sound I L) (fuel n : ℕ)
    (e a b : Expr) (n' : ℕ) (he : OldExpr n e) (h10 : SameDigits n n')
    (h : factorizeGiac L fuel n e = some (a, b, n')) :
    (∀ ρ, eval I ρ a * eval I ρ b = eval I ρ e) ∧
    ∀ s, Sub (.sym s) a ∨ Sub (.sym s) b → Sub (.sym s) e := by
  obtain ⟨_, h2⟩ := factWith_spec hL (fwd_spec hL fuel) h
  obtain ⟨h3, h4, h5⟩ := h2 he h10
  exact ⟨h3, fun s hs => hs.elim (fun h => plain_sym h4 h) fun h => plain_sym h5 h⟩

/-- giac leaves no inverse of an expression with identifiers among the factors of `g`. -/
def NoSymbolicInverse (L : Lib) (g : Gen) : Prop :=
  ∀ x, (x = L.factor g ∨ ∃ v, L.factor g = .prod v ∧ x ∈ v) → ∀ y, x = .inv y → idents y = []

theorem num_idents {L : Lib} {g x : Gen} (h : NoSymbolicInverse L g)
    (hx : x = L.factor g ∨ ∃ v, L.factor g = .prod v ∧ x ∈ v) (hn : isNumFactor x = true) : idents x = [] := by
  cases x with
  | int z => simp [idents]
  | frac p q => simp [idents]
  | inv y => simp only [idents]; exact h _ hx y rfl
  | idnt s => simp [isNumFactor] at hn
  | plus l => simp [isNumFactor] at hn
  | prod l => simp [isNumFactor] at hn
  | pow a b => simp [isNumFactor] at hn
  | call f y => simp [isNumFactor] at hn

theorem split_num {I : Interp K} {L : Lib} (hL : Sound I L) {g : Gen} (h : NoSymbolicInverse L g) :
    idents (split L (L.factor g)).1 = [] := by
  have mul_nil : ∀ a b, idents a = [] → idents b = [] → idents (L.mul a b) = [] := by
    intro a b ha hb
    have := hL.mul_ids a b
    rw [ha, hb, List.nil_append] at this
    exact List.subset_nil.mp this
  have one : ∀ x, x = L.factor g →
      idents (if isNumFactor x then (L.mul (.int 1) x, Gen.int 1) else (.int 1, L.mul (.int 1) x)).1 = [] := by
    intro x hx
    split
    · rename_i hn
      exact mul_nil _ _ (by simp [idents]) (num_idents h (.inl hx) hn)
    · simp [idents]
  have hall := fun x => num_idents (x := x) h
  clear h
  generalize L.factor g = f at *
  cases f with
  | prod v =>
    simp only [split]
    have : ∀ m : List Gen, (∀ x ∈ m, x ∈ v) → idents (m.foldr (fun a st =>
        if isNumFactor a = true then (L.mul st.1 a, st.2) else (st.1, L.mul st.2 a)) (Gen.int 1, Gen.int 1)).1 = [] := by
      intro m
      induction m with
      | nil => intro _; simp [idents]
      | cons a m ih =>
        intro hm
        simp only [List.foldr_cons]
        have h1 := ih fun x hx => hm x (.tail _ hx)
        split
        · rename_i hn
          exact mul_nil _ _ h1 (hall a (.inr ⟨v, rfl, hm a (.head _)⟩) hn)
        · exact h1
    exact this v fun _ hx => hx
  | int z => exact one _ rfl
  | frac p q => exact one _ rfl
  | idnt s => exact one _ rfl
  | plus l => exact one _ rfl
  | inv g => exact one _ rfl
  | pow a b => exact one _ rfl
  | call f g => exact one _ rfl

/-- **C162 (partial).**  If giac leaves no inverse of an expression with identifiers among the
factors, the numeric factor contains no symbol.  Without the condition this fails (see
`C162_numeric_factor_refuted`). -/
theorem C162_numeric_factor_partial [CharZero K] (I : Interp K) (L : Lib) (hL : Sound I L)
    (fuel n : ℕ) (e a b : Expr) (n' : ℕ)
    (hi : ∀ g w, fwd L fuel ⟨Blackboard.empty, n⟩ e = some (g, w) → NoSymbolicInverse L g) (he : OldExpr n e) (hd : SameDigits n n')
    (h : factorizeGiac L fuel n e = some (a, b, n')) (s : String) : ¬ Sub (.sym s) a := by
  simp only [factorizeGiac, factWith, Option.bind_eq_some_iff, Option.map_eq_some_iff, Prod.mk.injEq] at h
  obtain ⟨⟨g, w⟩, h1, a0, ha0, b0, hb0, ⟨a1, B1⟩, hra, ⟨b1, B2⟩, hrb, rfl, rfl, rfl⟩ := h
  obtain ⟨hle, hsp⟩ := fwd_spec hL fuel _ _ _ _ h1
  simp only at hle ha0 hra
  obtain ⟨hnice, -⟩ := hsp (nice_empty n) he (U.empty (hd.sub (le_refl _) (by simp only; omega)))
  have pa := (back_spec I (fun _ => 0) _ a0 ha0).2
  rw [split_num hL (hi _ _ h1)] at pa
  obtain ⟨C, hC, -⟩ := C27_rewrite_not_stale hnice.1.reach a0
  rw [hC] at hra
  simp only [Option.some.injEq, Prod.mk.injEq] at hra
  obtain ⟨rfl, rfl⟩ := hra
  intro hs
  rw [expand_eq] at hs
  exact plain_sym (P := fun _ => False) (plain_mapSyms (fun s hs => by simp at hs) pa) hs

end Giac
end Purrs
