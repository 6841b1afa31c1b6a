import Verif.Props.Blackboard

/-!
# C26, C27, C28, C56: histories of a blackboard
-/

set_option linter.unusedSectionVars false

namespace Purrs

open Function (update)
open Blackboard

/-! ## The memoised size -/

/-- What `expandSize` uses as the size of the symbol `s`. -/
def expandSizeSym (look : String → Option Nat) (rhs : List Expr) (k : Nat) (s : String) : Nat :=
    match look s with
    | some j => if _h : j < k then
        (match rhs[j]? with | some r => expandSize look rhs j r | none => 1) else 1
    | none => 1

theorem expandSize_eq (look : String → Option Nat) (rhs : List Expr) (k : Nat) (e : Expr) :
    expandSize look rhs k e = sizeNorm (expandSizeSym look rhs k) e := by
  rw [expandSize]; rfl

theorem Coherent.setSize {B : Blackboard} (h : Coherent B) {i : Nat} {d : Definition}
    (hd : B.defs[i]? = some d) {v : Nat} (hv : v = expandSize B.find (rhss B) i d.rhs) :
    Coherent (B.setSize i v) ∧ SameDefs B (B.setSize i v) := by
  have sd : SameDefs B (B.setSize i v) := by
    refine ⟨rfl, rfl, ?_⟩
    simp only [rhss, Blackboard.setSize]
    apply List.ext_getElem?
    intro j
    simp only [List.getElem?_map, List.getElem?_modify]
    split <;> cases B.defs[j]? <;> simp
  have get : ∀ j d', (B.setSize i v).defs[j]? = some d' → ∃ d0, B.defs[j]? = some d0 ∧
      d'.rhs = d0.rhs ∧ d'.expVal = d0.expVal ∧ d'.expStamp = d0.expStamp ∧
      ((j ≠ i ∧ d'.sizeVal = d0.sizeVal ∧ d'.sizeStamp = d0.sizeStamp) ∨
       (j = i ∧ d'.sizeVal = v ∧ d'.sizeStamp = B.stamp)) := by
    intro j d' hj
    simp only [Blackboard.setSize, List.getElem?_modify] at hj
    cases h0 : B.defs[j]? with
    | none => simp [h0] at hj
    | some d0 =>
      simp only [h0] at hj
      by_cases hij : i = j
      · simp [hij] at hj; subst hj; exact ⟨d0, rfl, rfl, rfl, rfl, Or.inr ⟨hij.symm, rfl, rfl⟩⟩
      · simp [hij] at hj; subst hj; exact ⟨d0, rfl, rfl, rfl, rfl, Or.inl ⟨Ne.symm hij, rfl, rfl⟩⟩
  have e1 : (B.setSize i v).find = B.find := sd.find
  have e2 : (B.setSize i v).stamp = B.stamp := rfl
  have e3 : rhss (B.setSize i v) = rhss B := sd.2.2
  refine ⟨⟨?_, ?_, ?_, ?_, ?_, ?_⟩, sd⟩
  · intro z j hz
    rw [e1] at hz
    have := h.valid z j hz
    simpa [Blackboard.setSize] using this
  · intro j d' hj
    obtain ⟨d0, h0, h1, _⟩ := get j d' hj
    rw [e1, h1]; exact h.acyclic j d0 h0
  · intro j d' hj
    obtain ⟨d0, h0, h1, _, h3, _⟩ := get j d' hj
    rw [h3]; exact h.expPast j d0 h0
  · intro j d' hj
    obtain ⟨d0, h0, h1, _, _, ⟨_, _, h2⟩ | ⟨_, _, h2⟩⟩ := get j d' hj
    · rw [h2]; exact h.sizePast j d0 h0
    · rw [h2]; exact le_refl _
  · intro j d' hj hs
    obtain ⟨d0, h0, h1, h4, h3, _⟩ := get j d' hj
    rw [e1, e3, h1, h4]; exact h.expRight j d0 h0 (by rw [← h3, hs, e2])
  · intro j d' hj hs
    obtain ⟨d0, h0, h1, _, _, ⟨_, h3, h2⟩ | ⟨hji, h3, h2⟩⟩ := get j d' hj
    · rw [e1, e3, h1, h3]; exact h.sizeRight j d0 h0 (by rw [← h2, hs, e2])
    · subst hji
      rw [hd] at h0; cases h0
      rw [e1, e3, h1, h3, hv]

theorem sizeM_list (fuel : Nat) (B : Blackboard) (k : Nat) (l : List Expr) (hB : Coherent B)
    (ih : ∀ a ∈ l, ∀ B0, Coherent B0 → SameDefs B B0 →
      ∃ B', sizeM fuel B0 a = some (expandSize B.find (rhss B) k a, B') ∧
      Coherent B' ∧ SameDefs B B') :
    ∃ B', l.foldr (fun a acc => acc.bind fun st =>
      (sizeM fuel st.2 a).map fun r => (st.1 + r.1, r.2)) (some (1, B))
      = some (1 + (l.map fun a => expandSize B.find (rhss B) k a).sum, B') ∧
      Coherent B' ∧ SameDefs B B' := by
  induction l with
  | nil => exact ⟨B, by simp, hB, .refl B⟩
  | cons a m ihm =>
    obtain ⟨B1, h1, h2, h3⟩ := ihm fun b hb => ih b (by simp [hb])
    obtain ⟨B2, h4, h5, h6⟩ := ih a (by simp) B1 h2 h3
    refine ⟨B2, ?_, h5, h6⟩
    simp only [List.foldr_cons, h1, Option.bind_some, h4, Option.map_some, List.map_cons,
      List.sum_cons]
    congr 2; omega

theorem sizeM_spec (fuel : Nat) : ∀ (e : Expr) (B : Blackboard), Coherent B → ∀ k,
    Below B.find k e → k ≤ fuel →
    ∃ B', sizeM fuel B e = some (expandSize B.find (rhss B) k e, B') ∧
      Coherent B' ∧ SameDefs B B' := by
  induction fuel using Nat.strong_induction_on with
  | _ fuel ihf =>
    intro e
    induction e using Expr.ind with
    | num q => intro B hB k hk hf; exact ⟨B, by simp [sizeM, expandSize_eq, sizeNorm], hB, .refl B⟩
    | const q => intro B hB k hk hf; exact ⟨B, by simp [sizeM, expandSize_eq, sizeNorm], hB, .refl B⟩
    | sym z =>
      intro B hB k hk hf
      rw [sizeM, expandSize_eq, sizeNorm]
      simp only [expandSizeSym]
      cases hz : B.find z with
      | none => exact ⟨B, by simp, hB, .refl B⟩
      | some i =>
        have hik := hk z i (.refl _) hz
        have hi := hB.valid z i hz
        obtain ⟨d, hd⟩ : ∃ d, B.defs[i]? = some d := ⟨_, List.getElem?_eq_getElem hi⟩
        simp only [hd, hik, dif_pos, rhss_get hd]
        obtain ⟨fuel, rfl⟩ : ∃ m, fuel = m + 1 := ⟨fuel - 1, by omega⟩
        split
        · obtain ⟨B', h1, h2, h3⟩ := ihf fuel (by omega) d.rhs B hB i (hB.acyclic i d hd) (by omega)
          simp only [h1, Option.map_some]
          have hd' : ∃ d', B'.defs[i]? = some d' ∧ d'.rhs = d.rhs := by
            have := rhss_get hd
            rw [← h3.2.2] at this
            simpa [rhss] using this
          obtain ⟨d', hd', hr⟩ := hd'
          obtain ⟨c1, c2⟩ := h2.setSize hd' (v := expandSize B.find (rhss B) i d.rhs)
            (by rw [h3.find, h3.2.2, hr])
          exact ⟨_, rfl, c1, h3.trans c2⟩
        · rename_i hst
          have := hB.sizePast i d hd
          have := hB.sizeRight i d hd (by omega)
          exact ⟨B, by rw [this], hB, .refl B⟩
    | add l ih =>
      intro B hB k hk hf
      rw [sizeM, expandSize_eq, sizeNorm]
      simp only [← expandSize_eq]
      apply sizeM_list fuel B k l hB
      intro a ha B0 h0 hs
      obtain ⟨B2, h4, h5, h6⟩ := ih a ha B0 h0 k
        (by rw [hs.find]; exact fun s j hs => hk s j (.add ha hs)) hf
      exact ⟨B2, by rw [h4, hs.find, hs.2.2], h5, hs.trans h6⟩
    | mul l ih =>
      intro B hB k hk hf
      rw [sizeM, expandSize_eq, sizeNorm]
      simp only [← expandSize_eq]
      apply sizeM_list fuel B k l hB
      intro a ha B0 h0 hs
      obtain ⟨B2, h4, h5, h6⟩ := ih a ha B0 h0 k
        (by rw [hs.find]; exact fun s j hs => hk s j (.mul ha hs)) hf
      exact ⟨B2, by rw [h4, hs.find, hs.2.2], h5, hs.trans h6⟩
    | fn f l ih =>
      intro B hB k hk hf
      rw [sizeM, expandSize_eq, sizeNorm]
      simp only [← expandSize_eq]
      apply sizeM_list fuel B k l hB
      intro a ha B0 h0 hs
      obtain ⟨B2, h4, h5, h6⟩ := ih a ha B0 h0 k
        (by rw [hs.find]; exact fun s j hs => hk s j (.fn ha hs)) hf
      exact ⟨B2, by rw [h4, hs.find, hs.2.2], h5, hs.trans h6⟩
    | pow b e hb he =>
      intro B hB k hk hf
      rw [sizeM, expandSize_eq, sizeNorm]
      obtain ⟨B1, h1, h2, h3⟩ := hb B hB k (fun s j hs => hk s j (.powB hs)) hf
      obtain ⟨B2, h4, h5, h6⟩ := he B1 h2 k
        (by rw [h3.find]; exact fun s j hs => hk s j (.powE hs)) hf
      refine ⟨B2, ?_, h5, h3.trans h6⟩
      simp only [h1, Option.bind_some, h4, Option.map_some, h3.find, h3.2.2]
      simp only [expandSize_eq]
    | binder kk i a b c hi ha hb hc =>
      intro B hB k hk hf
      simp only [sizeM]
      rw [expandSize_eq]
      simp only [sizeNorm]
      obtain ⟨B1, h1, h2, h3⟩ := hc B hB k (fun s j hs => hk s j (.bBody hs)) hf
      obtain ⟨B2, h4, h5, h6⟩ := hb B1 h2 k
        (by rw [h3.find]; exact fun s j hs => hk s j (.bUp hs)) hf
      have s2 := h3.trans h6
      obtain ⟨B3, h7, h8, h9⟩ := ha B2 h5 k
        (by rw [s2.find]; exact fun s j hs => hk s j (.bLo hs)) hf
      have s3 := s2.trans h9
      obtain ⟨B4, h10, h11, h12⟩ := hi B3 h8 k
        (by rw [s3.find]; exact fun s j hs => hk s j (.bI hs)) hf
      refine ⟨B4, ?_, h11, s3.trans h12⟩
      simp only [h1, Option.bind_some, h4, h7, h10, Option.map_some, h3.find, h3.2.2,
        s2.find, s2.2.2, s3.find, s3.2.2]
      simp only [expandSize_eq]
      congr 2; omega

/-! ## Histories -/

/-- The name GiNaC gives to the `n`-th symbol made without a name. -/
def autoName (n : Nat) : String := "symbol" ++ Nat.repr n

theorem autoName_inj {a b : Nat} (h : autoName a = autoName b) : a = b := by
  unfold autoName at h
  have h2 : (Nat.repr a) = Nat.repr b := by
    have := congrArg String.toList h
    simp only [String.toList_append, List.append_cancel_left_eq] at this
    exact String.toList_injective this
  exact Nat.repr_injective h2

/-- `s` is not a system-generated name of the future. -/
def Old (n : Nat) (s : String) : Prop := ∀ k, s = autoName k → k < n

/-- All the symbols in `e` exist already. -/
def OldExpr (n : Nat) (e : Expr) : Prop := ∀ s, Sub (.sym s) e → Old n s

/-- The state of a program using one blackboard: the blackboard and GiNaC's serial number. -/
structure World where
  bb : Blackboard
  serial : Nat

/-- What a program can do: define, create an unrelated unnamed symbol, rewrite, measure,
look up, rename. -/
inductive Op
  | insert (e : Expr)
  | newSymbol
  | rewrite (e : Expr)
  | size (e : Expr)
  | find (e : Expr)
  | subst (old new : String)

/-- One step; `none` when the program has undefined behaviour or does not return. -/
def World.step (w : World) : Op → Option World
  | .insert e => some ⟨w.bb.insertDef (autoName w.serial) e, w.serial + 1⟩
  | .newSymbol => some ⟨w.bb, w.serial + 1⟩
  | .rewrite e => (rewriteM w.bb.defs.length w.bb e).map fun r => ⟨r.2, w.serial⟩
  | .size e => (sizeM w.bb.defs.length w.bb e).map fun r => ⟨r.2, w.serial⟩
  | .find e => match w.bb.findSymbol (autoName w.serial) e with
      | .ok r => some ⟨r.2, w.serial + 1⟩
      | _ => none
  | .subst old new => some ⟨w.bb.substitute old new, w.serial⟩

/-- The arguments of a step are objects that exist, and a renaming uses a new name. -/
def Op.Valid (w : World) : Op → Prop
  | .insert e | .rewrite e | .size e | .find e => OldExpr w.serial e
  | .newSymbol => True
  | .subst _ new => Old w.serial new ∧ w.bb.find new = none ∧
      ∀ r ∈ rhss w.bb, ¬ Sub (.sym new) r

/-- The worlds a program can reach. -/
inductive Reach : World → Prop
  | init : Reach ⟨Blackboard.empty, 0⟩
  | step {w w' : World} (op : Op) : Reach w → op.Valid w → w.step op = some w' → Reach w'

/-- The invariant of `Reach`. -/
structure Inv (w : World) : Prop where
  coh : Coherent w.bb
  names : ∀ z i, w.bb.find z = some i → Old w.serial z
  rhs : ∀ r ∈ rhss w.bb, OldExpr w.serial r

theorem Old.mono {n m : Nat} (h : n ≤ m) {s : String} (hs : Old n s) : Old m s :=
  fun k hk => lt_of_lt_of_le (hs k hk) h

theorem not_old_auto (n : Nat) : ¬ Old n (autoName n) := fun h => lt_irrefl _ (h n rfl)

theorem find_indexInsert (ix : List (String × Nat)) (z : String) (k : Nat) (s : String) :
    ((indexInsert ix z k).find? fun p => p.1 = s).map Prod.snd =
      match (ix.find? fun p => p.1 = s).map Prod.snd with
      | some i => some i
      | none => if s = z then some k else none := by
  unfold indexInsert
  split
  · rename_i h
    cases hs : (ix.find? fun p => p.1 = s) with
    | some p => simp
    | none =>
      have : s ≠ z := by
        rintro rfl; rw [hs] at h; simp at h
      simp [this]
  · rw [List.find?_append]
    cases hs : (ix.find? fun p => p.1 = s) with
    | some p => simp
    | none =>
      by_cases hz : s = z
      · simp [hz]
      · simp [hz, Ne.symm hz]

theorem find_insertDef (B : Blackboard) (z : String) (e : Expr) (s : String) :
    (B.insertDef z e).find s = match B.find s with
      | some i => some i
      | none => if s = z then some B.defs.length else none :=
  find_indexInsert B.index z B.defs.length s

theorem rhss_insertDef (B : Blackboard) (z : String) (e : Expr) :
    rhss (B.insertDef z e) = rhss B ++ [e] := by
  simp [rhss, insertDef, Definition.new]

theorem find_substitute (B : Blackboard) (old new : String) (i : Nat) (hi : B.find old = some i)
    (s : String) :
    (B.substitute old new).find s = if s = old then none else match B.find s with
      | some i => some i
      | none => if s = new then some B.defs.length else none := by
  have key : ∀ (ix : List (String × Nat)),
      ((ix.filter fun p => decide (p.1 ≠ old)).find? fun p => decide (p.1 = s)).map Prod.snd =
      if s = old then none else (ix.find? fun p => decide (p.1 = s)).map Prod.snd := by
    intro ix
    induction ix with
    | nil => simp
    | cons p ix ih =>
      by_cases hp : p.1 = old
      · simp only [List.filter_cons, hp, ne_eq, not_true_eq_false, decide_false, Bool.false_eq_true,
          if_false]
        rw [show (List.filter (fun p => decide (p.1 ≠ old)) ix) = List.filter (fun p => decide (¬ p.1 = old)) ix from rfl] at ih
        rw [ih]
        by_cases hs : s = old
        · simp [hs]
        · simp [hs, hp, Ne.symm hs]
      · simp only [List.filter_cons, ne_eq, hp, not_false_eq_true, decide_true, if_true,
          List.find?_cons]
        by_cases hs : p.1 = s
        · have : s ≠ old := hs ▸ hp
          simp [hs, this]
        · simp only [hs, decide_false]
          exact ih
  unfold Blackboard.substitute
  rw [hi]
  simp only [Blackboard.find]
  rw [key, find_indexInsert]

theorem Coherent.insertDef {B : Blackboard} (h : Coherent B) {z : String} {e : Expr}
    (hz : B.find z = none) (hze : ¬ Sub (.sym z) e) (hzr : ∀ r ∈ rhss B, ¬ Sub (.sym z) r) :
    Coherent (B.insertDef z e) := by
  have get : ∀ j d, (B.insertDef z e).defs[j]? = some d →
      (B.defs[j]? = some d ∧ j < B.defs.length) ∨ (j = B.defs.length ∧ d = Definition.new e) := by
    intro j d hj
    simp only [Blackboard.insertDef, List.getElem?_append] at hj
    split at hj
    · rename_i hlt; exact Or.inl ⟨hj, hlt⟩
    · rename_i hlt
      obtain ⟨m, hm⟩ : ∃ m, j = B.defs.length + m := ⟨j - B.defs.length, by omega⟩
      subst hm
      cases m with
      | zero => simp at hj; exact Or.inr ⟨by simp, hj.symm⟩
      | succ m => simp at hj
  have below : ∀ j e', Below B.find j e' → ¬ Sub (.sym z) e' →
      Below (B.insertDef z e).find j e' := by
    intro j e' hb hn s i hs hf
    rw [find_insertDef] at hf
    cases hfs : B.find s with
    | some i' => rw [hfs] at hf; simp at hf; subst hf; exact hb s _ hs hfs
    | none =>
      rw [hfs] at hf
      have : s ≠ z := by rintro rfl; exact hn hs
      simp [this] at hf
  refine ⟨?_, ?_, ?_, ?_, ?_, ?_⟩
  · intro s i hf
    rw [find_insertDef] at hf
    have hl : (B.insertDef z e).defs.length = B.defs.length + 1 := by simp [Blackboard.insertDef]
    rw [hl]
    cases hfs : B.find s with
    | some i' => rw [hfs] at hf; simp at hf; subst hf; have := h.valid s _ hfs; omega
    | none =>
      rw [hfs] at hf
      by_cases hsz : s = z
      · simp [hsz] at hf; omega
      · simp [hsz] at hf
  · intro j d hj
    rcases get j d hj with ⟨h1, _⟩ | ⟨h1, rfl⟩
    · refine below j d.rhs (h.acyclic j d h1) (hzr _ ?_)
      exact List.mem_map.mpr ⟨d, List.mem_of_getElem? h1, rfl⟩
    · refine below j _ ?_ hze
      intro s i _ hf
      rw [h1]; exact h.valid s i hf
  · intro j d hj
    rcases get j d hj with ⟨h1, _⟩ | ⟨h1, rfl⟩
    · have := h.expPast j d h1; simp [Blackboard.insertDef]; omega
    · simp [Definition.new]
  · intro j d hj
    rcases get j d hj with ⟨h1, _⟩ | ⟨h1, rfl⟩
    · have := h.sizePast j d h1; simp [Blackboard.insertDef]; omega
    · simp [Definition.new]
  · intro j d hj hs
    rcases get j d hj with ⟨h1, _⟩ | ⟨h1, rfl⟩
    · have := h.expPast j d h1; simp [Blackboard.insertDef] at hs; omega
    · simp [Definition.new, Blackboard.insertDef] at hs
  · intro j d hj hs
    rcases get j d hj with ⟨h1, _⟩ | ⟨h1, rfl⟩
    · have := h.sizePast j d h1; simp [Blackboard.insertDef] at hs; omega
    · simp [Definition.new, Blackboard.insertDef] at hs

/-- The index after `substitute` is included in the one after inserting the copied
definition under the new name. -/
theorem Coherent.substitute {B : Blackboard} (h : Coherent B) {old new : String}
    (hz : B.find new = none) (hzr : ∀ r ∈ rhss B, ¬ Sub (.sym new) r) :
    Coherent (B.substitute old new) := by
  cases hi : B.find old with
  | none => unfold Blackboard.substitute; rw [hi]; exact h
  | some i =>
    obtain ⟨d, hd⟩ : ∃ d, B.defs[i]? = some d := ⟨_, List.getElem?_eq_getElem (h.valid _ _ hi)⟩
    have hr : d.rhs ∈ rhss B := List.mem_map.mpr ⟨d, List.mem_of_getElem? hd, rfl⟩
    have h' := h.insertDef (e := d.rhs) hz (hzr _ hr) hzr
    have e1 : (B.substitute old new).defs = (B.insertDef new d.rhs).defs := by
      simp [Blackboard.substitute, hi, hd, Blackboard.insertDef]
    have e2 : (B.substitute old new).stamp = (B.insertDef new d.rhs).stamp := by
      simp [Blackboard.substitute, hi, Blackboard.insertDef]
    have hf : ∀ s j, (B.substitute old new).find s = some j →
        (B.insertDef new d.rhs).find s = some j := by
      intro s j hs
      rw [find_substitute B old new i hi] at hs
      rw [find_insertDef]
      split at hs
      · simp at hs
      · exact hs
    have hst : ∀ (j : Nat) (d' : Definition), (B.insertDef new d.rhs).defs[j]? = some d' →
        d'.expStamp ≠ (B.insertDef new d.rhs).stamp ∧
        d'.sizeStamp ≠ (B.insertDef new d.rhs).stamp := by
      intro j d' hj
      simp only [Blackboard.insertDef, List.getElem?_append] at hj
      split at hj
      · have a := h.expPast j d' hj
        have b := h.sizePast j d' hj
        simp only [Blackboard.insertDef]; omega
      · have : d' = Definition.new d.rhs := by
          have := List.mem_of_getElem? hj; simpa using this
        subst this
        simp [Definition.new, Blackboard.insertDef]
    refine ⟨?_, ?_, ?_, ?_, ?_, ?_⟩
    · intro s j hs; rw [e1]; exact h'.valid s j (hf s j hs)
    · intro j d' hj
      rw [e1] at hj
      exact fun s k hs hk => h'.acyclic j d' hj s k hs (hf s k hk)
    · intro j d' hj; rw [e1] at hj; rw [e2]; exact h'.expPast j d' hj
    · intro j d' hj; rw [e1] at hj; rw [e2]; exact h'.sizePast j d' hj
    · intro j d' hj hs; rw [e1] at hj; rw [e2] at hs; exact absurd hs (hst j d' hj).1
    · intro j d' hj hs; rw [e1] at hj; rw [e2] at hs; exact absurd hs (hst j d' hj).2

theorem Coherent.below {B : Blackboard} (h : Coherent B) (e : Expr) :
    Below B.find B.defs.length e := fun s j _ hj => h.valid s j hj

theorem Inv.insert {w : World} (h : Inv w) {e : Expr} (he : OldExpr w.serial e) :
    Inv ⟨w.bb.insertDef (autoName w.serial) e, w.serial + 1⟩ := by
  have hz : w.bb.find (autoName w.serial) = none := by
    cases hf : w.bb.find (autoName w.serial) with
    | none => rfl
    | some i => exact absurd (h.names _ _ hf) (not_old_auto _)
  refine ⟨h.coh.insertDef hz (fun hs => not_old_auto _ (he _ hs))
    (fun r hr hs => not_old_auto _ (h.rhs r hr _ hs)), ?_, ?_⟩
  · intro s i hs
    rw [find_insertDef] at hs
    cases hf : w.bb.find s with
    | some j => exact (h.names s j hf).mono (by simp)
    | none =>
      rw [hf] at hs
      by_cases hsz : s = autoName w.serial
      · subst hsz; intro k hk; have := autoName_inj hk; simp; omega
      · simp [hsz] at hs
  · intro r hr
    rw [rhss_insertDef] at hr
    rcases List.mem_append.mp hr with hr | hr
    · exact fun s hs => (h.rhs r hr s hs).mono (by simp)
    · simp at hr; subst hr; exact fun s hs => (he s hs).mono (by simp)

theorem Inv.sameDefs {w : World} (h : Inv w) {B' : Blackboard} (hc : Coherent B')
    (hs : SameDefs w.bb B') : Inv ⟨B', w.serial⟩ := by
  refine ⟨hc, ?_, ?_⟩
  · intro z i hz; rw [hs.find] at hz; exact h.names z i hz
  · intro r hr; rw [hs.2.2] at hr; exact h.rhs r hr

theorem Inv.step {w w' : World} (h : Inv w) {op : Op} (hv : op.Valid w)
    (hs : w.step op = some w') : Inv w' := by
  cases op with
  | insert e => simp only [World.step, Option.some.injEq] at hs; subst hs; exact h.insert hv
  | newSymbol =>
    simp only [World.step, Option.some.injEq] at hs; subst hs
    exact ⟨h.coh, fun z i hz => (h.names z i hz).mono (by simp),
      fun r hr s hs => (h.rhs r hr s hs).mono (by simp)⟩
  | rewrite e =>
    obtain ⟨B', h1, h2, h3⟩ := rewriteM_spec _ e w.bb h.coh _ (h.coh.below e) (le_refl _)
    simp only [World.step, h1, Option.map_some, Option.some.injEq] at hs
    subst hs; exact h.sameDefs h2 h3
  | size e =>
    obtain ⟨B', h1, h2, h3⟩ := sizeM_spec _ e w.bb h.coh _ (h.coh.below e) (le_refl _)
    simp only [World.step, h1, Option.map_some, Option.some.injEq] at hs
    subst hs; exact h.sameDefs h2 h3
  | find e =>
    simp only [World.step, Blackboard.findSymbol] at hs
    cases hl : findLoop e w.bb.defs w.bb.sortedNames with
    | ub => simp [hl] at hs
    | throws => simp [hl] at hs
    | ok o =>
      cases o with
      | none => simp only [hl, Option.some.injEq] at hs; subst hs; exact h.insert hv
      | some s =>
        simp only [hl, Option.some.injEq] at hs; subst hs
        exact ⟨h.coh, fun z i hz => (h.names z i hz).mono (by simp),
          fun r hr s hs => (h.rhs r hr s hs).mono (by simp)⟩
  | subst old new =>
    simp only [World.step, Option.some.injEq] at hs; subst hs
    obtain ⟨v1, v2, v3⟩ := hv
    refine ⟨h.coh.substitute v2 v3, ?_, ?_⟩
    · intro s i hf
      simp only at hf
      cases hi : w.bb.find old with
      | none => simp only [Blackboard.substitute, hi] at hf; exact h.names s i hf
      | some j =>
        rw [find_substitute _ _ _ j hi] at hf
        split at hf
        · simp at hf
        · cases hfs : w.bb.find s with
          | some k => exact h.names s k hfs
          | none =>
            rw [hfs] at hf
            by_cases hsz : s = new
            · subst hsz; exact v1
            · simp [hsz] at hf
    · intro r hr
      simp only [Blackboard.substitute] at hr
      split at hr
      · rename_i j hi
        have hlt := h.coh.valid _ _ hi
        simp only [rhss, List.map_append, List.map_cons, List.map_nil, List.mem_append,
          List.mem_singleton, List.getElem?_eq_getElem hlt, Definition.new] at hr
        rcases hr with hr | hr
        · exact h.rhs r hr
        · subst hr; exact h.rhs _ (List.mem_map.mpr ⟨_, List.getElem_mem hlt, rfl⟩)
      · exact h.rhs r hr

theorem Reach.inv {w : World} (h : Reach w) : Inv w := by
  induction h with
  | init =>
    refine ⟨⟨?_, ?_, ?_, ?_, ?_, ?_⟩, ?_, ?_⟩ <;> simp [Blackboard.empty, Blackboard.find, rhss]
  | step op _ hv hs ih => exact ih.step hv hs

/-- **C27.** At every reachable state, rewriting any expression returns, and returns what
rewriting from scratch along the definitions returns; and doing so changes no definition. -/
theorem C27_rewrite_not_stale {w : World} (h : Reach w) (e : Expr) :
    ∃ B', rewriteM w.bb.defs.length w.bb e
        = some (expand w.bb.find (rhss w.bb) w.bb.defs.length e, B') ∧
      SameDefs w.bb B' :=
  let ⟨B', h1, _, h3⟩ := rewriteM_spec _ e w.bb h.inv.coh _ (h.inv.coh.below e) (le_refl _)
  ⟨B', h1, h3⟩

/-- **C27.** The same for the size. -/
theorem C27_size_not_stale {w : World} (h : Reach w) (e : Expr) :
    ∃ B', sizeM w.bb.defs.length w.bb e
        = some (expandSize w.bb.find (rhss w.bb) w.bb.defs.length e, B') ∧
      SameDefs w.bb B' :=
  let ⟨B', h1, _, h3⟩ := sizeM_spec _ e w.bb h.inv.coh _ (h.inv.coh.below e) (le_refl _)
  ⟨B', h1, h3⟩

/-- **C27.** No step other than a look-up can fail. -/
theorem C27_progress {w : World} (h : Reach w) (op : Op) (hop : ∀ e, op ≠ .find e) :
    ∃ w', w.step op = some w' := by
  cases op with
  | insert e => exact ⟨_, rfl⟩
  | newSymbol => exact ⟨_, rfl⟩
  | rewrite e =>
    obtain ⟨B', h1, _⟩ := C27_rewrite_not_stale h e
    exact ⟨⟨B', w.serial⟩, by simp only [World.step, h1, Option.map_some]⟩
  | size e =>
    obtain ⟨B', h1, _⟩ := C27_size_not_stale h e
    exact ⟨⟨B', w.serial⟩, by simp only [World.step, h1, Option.map_some]⟩
  | find e => exact absurd rfl (hop e)
  | subst old new => exact ⟨_, rfl⟩

end Purrs
