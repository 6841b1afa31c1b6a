import Verif.Model.Blackboard
import Verif.Props.Expr
import Std.Data.String.ToNat

/-!
# C26, C27, C28, C56: the blackboard

Specification: a blackboard denotes a list of definitions `z := rhs`; `expand` is the
un-memoised rewriting of an expression along those definitions and `expandSize` the
un-memoised size.
-/

set_option linter.unusedSectionVars false

namespace Purrs

open Function (update)
open Blackboard

/-! ## Specification -/

/-- Replace each symbol `s` by `g s`, rebuilding the expression with the operators. -/
def mapSyms (g : String → Expr) : Expr → Expr
  | .add l => l.foldr (fun a acc => addE acc (mapSyms g a)) (.num 0)
  | .mul l => l.foldr (fun a acc => mulE acc (mapSyms g a)) (.num 1)
  | .pow b e => powE (mapSyms g b) (mapSyms g e)
  | .fn f l => .fn f (l.map fun a => mapSyms g a)
  | .binder k i lo up body =>
      .binder k (mapSyms g i) (mapSyms g lo) (mapSyms g up) (mapSyms g body)
  | .sym s => g s
  | .num q => .num q
  | .const c => .const c

/-- Un-memoised rewriting: symbols defined at a position below `k` are replaced by the
expansion of their definition.  `look` is the name → position map, `rhs` the list of
right-hand sides. -/
def expand (look : String → Option Nat) (rhs : List Expr) (k : Nat) (e : Expr) : Expr :=
  mapSyms (fun s =>
    match look s with
    | some j => if _h : j < k then
        (match rhs[j]? with | some r => expand look rhs j r | none => .sym s) else .sym s
    | none => .sym s) e
termination_by k

/-- What `expand` puts in the place of the symbol `s`. -/
def expandSym (look : String → Option Nat) (rhs : List Expr) (k : Nat) (s : String) : Expr :=
    match look s with
    | some j => if _h : j < k then
        (match rhs[j]? with | some r => expand look rhs j r | none => .sym s) else .sym s
    | none => .sym s

theorem expand_eq (look : String → Option Nat) (rhs : List Expr) (k : Nat) (e : Expr) :
    expand look rhs k e = mapSyms (expandSym look rhs k) e := by
  rw [expand]; rfl

/-- Un-memoised size of the expansion, computed without expanding. -/
def expandSize (look : String → Option Nat) (rhs : List Expr) (k : Nat) (e : Expr) : Nat :=
  sizeNorm (fun s =>
    match look s with
    | some j => if _h : j < k then
        (match rhs[j]? with | some r => expandSize look rhs j r | none => 1) else 1
    | none => 1) e
termination_by k

/-- The right-hand sides of a blackboard in order of insertion. -/
def rhss (B : Blackboard) : List Expr := B.defs.map Definition.rhs

/-- `e` only mentions defined symbols at positions below `k`. -/
def Below (look : String → Option Nat) (k : Nat) (e : Expr) : Prop :=
  ∀ s j, Sub (.sym s) e → look s = some j → j < k

/-- The invariant: positions are valid, a definition only mentions earlier ones, no cache
entry is from the future, and the entries of the present are right. -/
structure Coherent (B : Blackboard) : Prop where
  valid : ∀ z i, B.find z = some i → i < B.defs.length
  acyclic : ∀ (i : Nat) (d : Definition), B.defs[i]? = some d → Below B.find i d.rhs
  expPast : ∀ (i : Nat) (d : Definition), B.defs[i]? = some d → d.expStamp ≤ B.stamp
  sizePast : ∀ (i : Nat) (d : Definition), B.defs[i]? = some d → d.sizeStamp ≤ B.stamp
  expRight : ∀ (i : Nat) (d : Definition), B.defs[i]? = some d → d.expStamp = B.stamp →
    d.expVal = expand B.find (rhss B) i d.rhs
  sizeRight : ∀ (i : Nat) (d : Definition), B.defs[i]? = some d → d.sizeStamp = B.stamp →
    d.sizeVal = expandSize B.find (rhss B) i d.rhs

/-- Same definitions, caches aside. -/
def SameDefs (B B' : Blackboard) : Prop :=
  B'.index = B.index ∧ B'.stamp = B.stamp ∧ rhss B' = rhss B

theorem SameDefs.refl (B : Blackboard) : SameDefs B B := ⟨rfl, rfl, rfl⟩
theorem SameDefs.trans {A B C : Blackboard} (h : SameDefs A B) (h' : SameDefs B C) :
    SameDefs A C := ⟨h'.1.trans h.1, h'.2.1.trans h.2.1, h'.2.2.trans h.2.2⟩
theorem SameDefs.find {B B' : Blackboard} (h : SameDefs B B') : B'.find = B.find := by
  funext z; simp [Blackboard.find, h.1]

theorem rhss_get {B : Blackboard} {i : Nat} {d : Definition} (h : B.defs[i]? = some d) :
    (rhss B)[i]? = some d.rhs := by simp [rhss, h]

/-! ## Lemmas on subterms -/

theorem sub_add {s : String} {l : List Expr} : Sub (.sym s) (.add l) ↔ ∃ a ∈ l, Sub (.sym s) a := by
  constructor
  · intro h; cases h with | add ha h => exact ⟨_, ha, h⟩
  · rintro ⟨a, ha, h⟩; exact .add ha h

theorem sub_mul {s : String} {l : List Expr} : Sub (.sym s) (.mul l) ↔ ∃ a ∈ l, Sub (.sym s) a := by
  constructor
  · intro h; cases h with | mul ha h => exact ⟨_, ha, h⟩
  · rintro ⟨a, ha, h⟩; exact .mul ha h

theorem sub_fn {s : String} {f : Fn} {l : List Expr} :
    Sub (.sym s) (.fn f l) ↔ ∃ a ∈ l, Sub (.sym s) a := by
  constructor
  · intro h; cases h with | fn ha h => exact ⟨_, ha, h⟩
  · rintro ⟨a, ha, h⟩; exact .fn ha h

theorem sub_pow {s : String} {a b : Expr} :
    Sub (.sym s) (.pow a b) ↔ Sub (.sym s) a ∨ Sub (.sym s) b := by
  constructor
  · intro h; cases h with | powB h => exact Or.inl h | powE h => exact Or.inr h
  · rintro (h | h); exacts [.powB h, .powE h]

theorem sub_num {s : String} {q : ℚ} : ¬ Sub (.sym s) (.num q) := by intro h; cases h
theorem sub_const {s : String} {q : String} : ¬ Sub (.sym s) (.const q) := by intro h; cases h
theorem sub_sym {s t : String} : Sub (.sym s) (.sym t) ↔ s = t :=
  ⟨fun h => by cases h; rfl, fun h => h ▸ .refl _⟩
theorem sub_binder {s : String} {k i a b c} : Sub (.sym s) (.binder k i a b c) ↔
    Sub (.sym s) i ∨ Sub (.sym s) a ∨ Sub (.sym s) b ∨ Sub (.sym s) c := by
  constructor
  · intro h
    cases h with
    | bI h => exact Or.inl h
    | bLo h => exact Or.inr (Or.inl h)
    | bUp h => exact Or.inr (Or.inr (Or.inl h))
    | bBody h => exact Or.inr (Or.inr (Or.inr h))
  · rintro (h | h | h | h); exacts [.bI h, .bLo h, .bUp h, .bBody h]

theorem sub_addE {s : String} {a b : Expr} (h : Sub (.sym s) (addE a b)) :
    Sub (.sym s) a ∨ Sub (.sym s) b := by
  revert h
  cases a <;> cases b <;> simp only [addE] <;> (try split) <;>
    simp_all [sub_add, sub_num, sub_const, sub_sym, or_and_right, exists_or]

theorem sub_mulE {s : String} {a b : Expr} (h : Sub (.sym s) (mulE a b)) :
    Sub (.sym s) a ∨ Sub (.sym s) b := by
  revert h
  cases a <;> cases b <;> simp only [mulE] <;> (try split) <;> (try split) <;>
    simp_all [sub_mul, sub_num, sub_const, sub_sym, or_and_right, exists_or]

theorem sub_powE {s : String} {a b : Expr} (h : Sub (.sym s) (powE a b)) :
    Sub (.sym s) a ∨ Sub (.sym s) b := by
  revert h
  cases a <;> cases b <;> simp only [powE] <;> (try split) <;> (try split) <;>
    simp_all [sub_pow, sub_num, sub_const, sub_sym]

theorem sub_mapSyms {g : String → Expr} {s : String} {e : Expr} (h : Sub (.sym s) (mapSyms g e)) :
    ∃ t, Sub (.sym t) e ∧ Sub (.sym s) (g t) := by
  induction e using Expr.ind with
  | num q => simp [mapSyms, sub_num] at h
  | const q => simp [mapSyms, sub_const] at h
  | sym t => simp [mapSyms] at h; exact ⟨t, .refl _, h⟩
  | add l ih =>
    rw [mapSyms] at h
    have : ∀ m : List Expr, Sub (.sym s) (m.foldr (fun a acc => addE acc (mapSyms g a)) (.num 0)) →
        ∃ a ∈ m, Sub (.sym s) (mapSyms g a) := by
      intro m hm
      induction m with
      | nil => simp [sub_num] at hm
      | cons a m ihm =>
        rcases sub_addE hm with h | h
        · obtain ⟨b, hb, h⟩ := ihm h; exact ⟨b, by simp [hb], h⟩
        · exact ⟨a, by simp, h⟩
    obtain ⟨a, ha, h⟩ := this l h
    obtain ⟨t, h1, h2⟩ := ih a ha h
    exact ⟨t, .add ha h1, h2⟩
  | mul l ih =>
    rw [mapSyms] at h
    have : ∀ m : List Expr, Sub (.sym s) (m.foldr (fun a acc => mulE acc (mapSyms g a)) (.num 1)) →
        ∃ a ∈ m, Sub (.sym s) (mapSyms g a) := by
      intro m hm
      induction m with
      | nil => simp [sub_num] at hm
      | cons a m ihm =>
        rcases sub_mulE hm with h | h
        · obtain ⟨b, hb, h⟩ := ihm h; exact ⟨b, by simp [hb], h⟩
        · exact ⟨a, by simp, h⟩
    obtain ⟨a, ha, h⟩ := this l h
    obtain ⟨t, h1, h2⟩ := ih a ha h
    exact ⟨t, .mul ha h1, h2⟩
  | pow b e hb he =>
    rw [mapSyms] at h
    rcases sub_powE h with h | h
    · obtain ⟨t, h1, h2⟩ := hb h; exact ⟨t, .powB h1, h2⟩
    · obtain ⟨t, h1, h2⟩ := he h; exact ⟨t, .powE h1, h2⟩
  | fn f l ih =>
    rw [mapSyms, sub_fn] at h
    obtain ⟨a, ha, h⟩ := h
    obtain ⟨b, hb, rfl⟩ := List.mem_map.mp ha
    obtain ⟨t, h1, h2⟩ := ih b hb h
    exact ⟨t, .fn hb h1, h2⟩
  | binder k i a b c hi ha hb hc =>
    rw [mapSyms, sub_binder] at h
    rcases h with h | h | h | h
    · obtain ⟨t, h1, h2⟩ := hi h; exact ⟨t, .bI h1, h2⟩
    · obtain ⟨t, h1, h2⟩ := ha h; exact ⟨t, .bLo h1, h2⟩
    · obtain ⟨t, h1, h2⟩ := hb h; exact ⟨t, .bUp h1, h2⟩
    · obtain ⟨t, h1, h2⟩ := hc h; exact ⟨t, .bBody h1, h2⟩

/-! ## Correctness of the memoised rewriting -/

theorem Coherent.setExp {B : Blackboard} (h : Coherent B) {i : Nat} {d : Definition}
    (hd : B.defs[i]? = some d) {v : Expr} (hv : v = expand B.find (rhss B) i d.rhs) :
    Coherent (B.setExp i v) ∧ SameDefs B (B.setExp i v) := by
  have sd : SameDefs B (B.setExp i v) := by
    refine ⟨rfl, rfl, ?_⟩
    simp only [rhss, Blackboard.setExp]
    apply List.ext_getElem?
    intro j
    simp only [List.getElem?_map, List.getElem?_modify]
    split <;> cases B.defs[j]? <;> simp
  have get : ∀ j d', (B.setExp i v).defs[j]? = some d' → ∃ d0, B.defs[j]? = some d0 ∧
      d'.rhs = d0.rhs ∧ d'.sizeVal = d0.sizeVal ∧ d'.sizeStamp = d0.sizeStamp ∧
      ((j ≠ i ∧ d'.expVal = d0.expVal ∧ d'.expStamp = d0.expStamp) ∨
       (j = i ∧ d'.expVal = v ∧ d'.expStamp = B.stamp)) := by
    intro j d' hj
    simp only [Blackboard.setExp, List.getElem?_modify] at hj
    cases h0 : B.defs[j]? with
    | none => simp [h0] at hj
    | some d0 =>
      simp only [h0] at hj
      by_cases hij : i = j
      · simp [hij] at hj; subst hj; exact ⟨d0, rfl, rfl, rfl, rfl, Or.inr ⟨hij.symm, rfl, rfl⟩⟩
      · simp [hij] at hj; subst hj; exact ⟨d0, rfl, rfl, rfl, rfl, Or.inl ⟨Ne.symm hij, rfl, rfl⟩⟩
  have e1 : (B.setExp i v).find = B.find := sd.find
  have e2 : (B.setExp i v).stamp = B.stamp := rfl
  have e3 : rhss (B.setExp i v) = rhss B := sd.2.2
  refine ⟨⟨?_, ?_, ?_, ?_, ?_, ?_⟩, sd⟩
  · intro z j hz
    rw [e1] at hz
    have := h.valid z j hz
    simpa [Blackboard.setExp] using this
  · intro j d' hj
    obtain ⟨d0, h0, h1, _⟩ := get j d' hj
    rw [e1, h1]; exact h.acyclic j d0 h0
  · intro j d' hj
    obtain ⟨d0, h0, h1, _, _, ⟨_, _, h2⟩ | ⟨_, _, h2⟩⟩ := get j d' hj
    · rw [h2]; exact h.expPast j d0 h0
    · rw [h2]; exact le_refl _
  · intro j d' hj
    obtain ⟨d0, h0, h1, _, h3, _⟩ := get j d' hj
    rw [h3]; exact h.sizePast j d0 h0
  · intro j d' hj hs
    obtain ⟨d0, h0, h1, _, _, ⟨_, h3, h2⟩ | ⟨hji, h3, h2⟩⟩ := get j d' hj
    · rw [e1, e3, h1, h3]; exact h.expRight j d0 h0 (by rw [← h2, hs, e2])
    · subst hji
      rw [hd] at h0; cases h0
      rw [e1, e3, h1, h3, hv]
  · intro j d' hj hs
    obtain ⟨d0, h0, h1, h4, h3, _⟩ := get j d' hj
    rw [e1, e3, h1, h4]; exact h.sizeRight j d0 h0 (by rw [← h3, hs, e2])

theorem rewriteM_spec (fuel : Nat) : ∀ (e : Expr) (B : Blackboard), Coherent B → ∀ k,
    Below B.find k e → k ≤ fuel →
    ∃ B', rewriteM fuel B e = some (expand B.find (rhss B) k e, B') ∧
      Coherent B' ∧ SameDefs B B' := by
  induction fuel using Nat.strong_induction_on with
  | _ fuel ihf =>
    intro e
    induction e using Expr.ind with
    | num q => intro B hB k hk hf; exact ⟨B, by simp [rewriteM, expand_eq, mapSyms], hB, .refl B⟩
    | const q => intro B hB k hk hf; exact ⟨B, by simp [rewriteM, expand_eq, mapSyms], hB, .refl B⟩
    | sym z =>
      intro B hB k hk hf
      rw [rewriteM, expand_eq, mapSyms]
      simp only [expandSym]
      cases hz : B.find z with
      | none => exact ⟨B, by simp, hB, .refl B⟩
      | some i =>
        have hik := hk z i (.refl _) hz
        have hi := hB.valid z i hz
        obtain ⟨d, hd⟩ : ∃ d, B.defs[i]? = some d := ⟨_, List.getElem?_eq_getElem hi⟩
        simp only [hd, hik, dif_pos, rhss_get hd]
        obtain ⟨fuel, rfl⟩ : ∃ m, fuel = m + 1 := ⟨fuel - 1, by omega⟩
        split
        · obtain ⟨B', h1, h2, h3⟩ := ihf fuel (by omega) d.rhs B hB i (hB.acyclic i d hd) (by omega)
          simp only [h1, Option.map_some]
          have hd' : ∃ d', B'.defs[i]? = some d' ∧ d'.rhs = d.rhs := by
            have := rhss_get hd
            rw [← h3.2.2] at this
            simpa [rhss] using this
          obtain ⟨d', hd', hr⟩ := hd'
          obtain ⟨c1, c2⟩ := h2.setExp hd' (v := expand B.find (rhss B) i d.rhs)
            (by rw [h3.find, h3.2.2, hr])
          exact ⟨_, rfl, c1, h3.trans c2⟩
        · rename_i hst
          have := hB.expPast i d hd
          have := hB.expRight i d hd (by omega)
          exact ⟨B, by rw [this], hB, .refl B⟩
    | add l ih =>
      intro B hB k hk hf
      rw [rewriteM, expand_eq, mapSyms]
      have : ∀ m : List Expr, (∀ a ∈ m, a ∈ l) → ∃ B',
          m.foldr (fun a acc => acc.bind fun st =>
            (rewriteM fuel st.2 a).map fun r => (addE st.1 r.1, r.2)) (some (.num 0, B))
          = some (m.foldr (fun a acc => addE acc (expand B.find (rhss B) k a)) (.num 0), B') ∧
          Coherent B' ∧ SameDefs B B' := by
        intro m hm
        induction m with
        | nil => exact ⟨B, rfl, hB, .refl B⟩
        | cons a m ihm =>
          obtain ⟨B1, h1, h2, h3⟩ := ihm fun b hb => hm b (by simp [hb])
          obtain ⟨B2, h4, h5, h6⟩ := ih a (hm a (by simp)) B1 h2 k
            (by rw [h3.find]; exact fun s j hs => hk s j (.add (hm a (by simp)) hs)) hf
          refine ⟨B2, ?_, h5, h3.trans h6⟩
          simp only [List.foldr_cons, h1, Option.bind_some, h4, Option.map_some, h3.find, h3.2.2]
      obtain ⟨B', h1, h2, h3⟩ := this l fun a ha => ha
      refine ⟨B', ?_, h2, h3⟩
      rw [h1]
      simp only [expand_eq]
    | mul l ih =>
      intro B hB k hk hf
      rw [rewriteM, expand_eq, mapSyms]
      have : ∀ m : List Expr, (∀ a ∈ m, a ∈ l) → ∃ B',
          m.foldr (fun a acc => acc.bind fun st =>
            (rewriteM fuel st.2 a).map fun r => (mulE st.1 r.1, r.2)) (some (.num 1, B))
          = some (m.foldr (fun a acc => mulE acc (expand B.find (rhss B) k a)) (.num 1), B') ∧
          Coherent B' ∧ SameDefs B B' := by
        intro m hm
        induction m with
        | nil => exact ⟨B, rfl, hB, .refl B⟩
        | cons a m ihm =>
          obtain ⟨B1, h1, h2, h3⟩ := ihm fun b hb => hm b (by simp [hb])
          obtain ⟨B2, h4, h5, h6⟩ := ih a (hm a (by simp)) B1 h2 k
            (by rw [h3.find]; exact fun s j hs => hk s j (.mul (hm a (by simp)) hs)) hf
          refine ⟨B2, ?_, h5, h3.trans h6⟩
          simp only [List.foldr_cons, h1, Option.bind_some, h4, Option.map_some, h3.find, h3.2.2]
      obtain ⟨B', h1, h2, h3⟩ := this l fun a ha => ha
      refine ⟨B', ?_, h2, h3⟩
      rw [h1]
      simp only [expand_eq]
    | pow b e hb he =>
      intro B hB k hk hf
      rw [rewriteM, expand_eq, mapSyms]
      obtain ⟨B1, h1, h2, h3⟩ := hb B hB k (fun s j hs => hk s j (.powB hs)) hf
      obtain ⟨B2, h4, h5, h6⟩ := he B1 h2 k
        (by rw [h3.find]; exact fun s j hs => hk s j (.powE hs)) hf
      refine ⟨B2, ?_, h5, h3.trans h6⟩
      simp only [h1, Option.bind_some, h4, Option.map_some, h3.find, h3.2.2]
      simp only [expand_eq]
    | fn f l ih =>
      intro B hB k hk hf
      rw [rewriteM, expand_eq, mapSyms]
      have : ∀ m : List Expr, (∀ a ∈ m, a ∈ l) → ∀ (B0 : Blackboard) (acc : List Expr),
          Coherent B0 → SameDefs B B0 → ∃ B',
          m.foldl (fun acc a => acc.bind fun st =>
            (rewriteM fuel st.2 a).map fun r => (st.1 ++ [r.1], r.2)) (some (acc, B0))
          = some (acc ++ m.map (fun a => expand B.find (rhss B) k a), B') ∧
          Coherent B' ∧ SameDefs B B' := by
        intro m
        induction m with
        | nil => intro hm B0 acc h0 hs; exact ⟨B0, by simp, h0, hs⟩
        | cons a m ihm =>
          intro hm B0 acc h0 hs
          obtain ⟨B2, h4, h5, h6⟩ := ih a (hm a (by simp)) B0 h0 k
            (by rw [hs.find]; exact fun s j hs => hk s j (.fn (hm a (by simp)) hs)) hf
          obtain ⟨B1, h1, h2, h3⟩ := ihm (fun b hb => hm b (by simp [hb])) B2
            (acc ++ [expand B.find (rhss B) k a]) h5 (hs.trans h6)
          refine ⟨B1, ?_, h2, h3⟩
          simp only [List.foldl_cons, Option.bind_some, h4, Option.map_some, hs.find, hs.2.2, h1]
          simp
      obtain ⟨B', h1, h2, h3⟩ := this l (fun a ha => ha) B [] hB (.refl B)
      refine ⟨B', ?_, h2, h3⟩
      rw [h1]
      simp [expand_eq]
    | binder kk i a b c hi ha hb hc =>
      intro B hB k hk hf
      simp only [rewriteM]
      rw [expand_eq]
      simp only [mapSyms]
      obtain ⟨B1, h1, h2, h3⟩ := hi B hB k (fun s j hs => hk s j (.bI hs)) hf
      obtain ⟨B2, h4, h5, h6⟩ := ha B1 h2 k
        (by rw [h3.find]; exact fun s j hs => hk s j (.bLo hs)) hf
      have s2 := h3.trans h6
      obtain ⟨B3, h7, h8, h9⟩ := hb B2 h5 k
        (by rw [s2.find]; exact fun s j hs => hk s j (.bUp hs)) hf
      have s3 := s2.trans h9
      obtain ⟨B4, h10, h11, h12⟩ := hc B3 h8 k
        (by rw [s3.find]; exact fun s j hs => hk s j (.bBody hs)) hf
      refine ⟨B4, ?_, h11, s3.trans h12⟩
      simp only [h1, Option.bind_some, h4, h7, h10, Option.map_some, h3.find, h3.2.2,
        s2.find, s2.2.2, s3.find, s3.2.2]
      simp only [expand_eq]

end Purrs
