import Verif.Props.BlackboardHist
import Verif.Model.RealInterp

/-!
# C26, C28, C56: what the blackboard means
-/

set_option linter.unusedSectionVars false

namespace Purrs

open Function (update)
open Blackboard

variable {K : Type} [Field K] [CharZero K]

/-! ## C26: definitions are retrievable -/

/-- A continuation of a program from the world `w` in which `z` is not renamed. -/
inductive Later (z : String) : World → World → Prop
  | refl (w : World) : Later z w w
  | step {w w' w'' : World} (op : Op) : Later z w w' → op.Valid w' →
      (∀ new, op ≠ .subst z new) → w'.step op = some w'' → Later z w w''

theorem Later.reach {z : String} {w w' : World} (h : Later z w w') (hw : Reach w) : Reach w' := by
  induction h with
  | refl => exact hw
  | step op _ hv _ hs ih => exact .step op ih hv hs

theorem getDef_of {B : Blackboard} {z : String} {i : Nat} {e : Expr} (h : B.find z = some i)
    (he : (rhss B)[i]? = some e) : B.getDef z = e := by
  unfold Blackboard.getDef
  rw [h]
  simp only [rhss, List.getElem?_map] at he
  cases hd : B.defs[i]? with
  | none => simp [hd] at he
  | some d => simp [hd] at he; simp [hd, he]

/-- **C26.** Inserting a definition gives a symbol that nothing on the blackboard mentions,
and the definition can be read back. -/
theorem C26_insert {w : World} (h : Reach w) (e : Expr) (he : OldExpr w.serial e) :
    let z := autoName w.serial
    w.bb.find z = none ∧ ¬ Sub (.sym z) e ∧ (∀ r ∈ rhss w.bb, ¬ Sub (.sym z) r) ∧
    (w.bb.insertDef z e).getDef z = e := by
  have hi := h.inv
  have hz : w.bb.find (autoName w.serial) = none := by
    cases hf : w.bb.find (autoName w.serial) with
    | none => rfl
    | some i => exact absurd (hi.names _ _ hf) (not_old_auto _)
  refine ⟨hz, fun hs => not_old_auto _ (he _ hs),
    fun r hr hs => not_old_auto _ (hi.rhs r hr _ hs), ?_⟩
  apply getDef_of (i := w.bb.defs.length)
  · rw [find_insertDef, hz]; simp
  · rw [rhss_insertDef, List.getElem?_append_right (by simp [rhss])]; simp [rhss]

theorem step_keeps {w w' : World} (hi : Inv w) {op : Op} {z : String}
    (hz : ∀ new, op ≠ .subst z new) (hv : op.Valid w) (hs : w.step op = some w') {i : Nat} {e : Expr}
    (hf : w.bb.find z = some i) (he : (rhss w.bb)[i]? = some e) :
    w'.bb.find z = some i ∧ (rhss w'.bb)[i]? = some e := by
  have ins : ∀ y e', (w.bb.insertDef y e').find z = some i ∧
      (rhss (w.bb.insertDef y e'))[i]? = some e := by
    intro y e'
    rw [find_insertDef, hf, rhss_insertDef]
    refine ⟨rfl, ?_⟩
    rw [List.getElem?_append_left]; exact he
    exact (List.getElem?_eq_some_iff.mp he).1
  cases op with
  | insert e => simp only [World.step, Option.some.injEq] at hs; subst hs; exact ins _ _
  | newSymbol => simp only [World.step, Option.some.injEq] at hs; subst hs; exact ⟨hf, he⟩
  | rewrite e =>
    obtain ⟨B', h1, h2, h3⟩ := rewriteM_spec _ e w.bb hi.coh _ (hi.coh.below e) (le_refl _)
    simp only [World.step, h1, Option.map_some, Option.some.injEq] at hs
    subst hs; simp only [h3.find, h3.2.2]; exact ⟨hf, he⟩
  | size e =>
    obtain ⟨B', h1, h2, h3⟩ := sizeM_spec _ e w.bb hi.coh _ (hi.coh.below e) (le_refl _)
    simp only [World.step, h1, Option.map_some, Option.some.injEq] at hs
    subst hs; simp only [h3.find, h3.2.2]; exact ⟨hf, he⟩
  | find e =>
    simp only [World.step, Blackboard.findSymbol] at hs
    cases hl : findLoop e w.bb.defs w.bb.sortedNames with
    | ub => simp [hl] at hs
    | throws => simp [hl] at hs
    | ok o =>
      cases o with
      | none => simp only [hl, Option.some.injEq] at hs; subst hs; exact ins _ _
      | some s => simp only [hl, Option.some.injEq] at hs; subst hs; exact ⟨hf, he⟩
  | subst old new =>
    simp only [World.step, Option.some.injEq] at hs; subst hs
    have hzo : z ≠ old := by rintro rfl; exact hz new rfl
    cases hi' : w.bb.find old with
    | none => simp only [Blackboard.substitute, hi']; exact ⟨hf, he⟩
    | some j =>
      refine ⟨?_, ?_⟩
      · simp only [find_substitute _ _ _ j hi', hzo, if_false, hf]
      · simp only [Blackboard.substitute, hi', rhss, List.map_append]
        rw [List.getElem?_append_left]; exact he
        exact (List.getElem?_eq_some_iff.mp he).1

/-- **C26.** A definition once made is retrievable for ever after, whatever happens next
(unless the symbol itself is renamed). -/
theorem C26_retrievable {w w' : World} {z : String} (hw : Reach w) (h : Later z w w')
    {i : Nat} (hf : w.bb.find z = some i) : w'.bb.getDef z = w.bb.getDef z := by
  obtain ⟨e, he⟩ : ∃ e, (rhss w.bb)[i]? = some e := by
    have := hw.inv.coh.valid z i hf
    exact ⟨_, List.getElem?_eq_getElem (by simpa [rhss] using this)⟩
  have : w'.bb.find z = some i ∧ (rhss w'.bb)[i]? = some e := by
    induction h with
    | refl => exact ⟨hf, he⟩
    | step op h hv hn hs ih => exact step_keeps (h.reach hw).inv hn hv hs ih.1 ih.2
  rw [getDef_of hf he, getDef_of this.1 this.2]

/-- **C26.** After a renaming, the new name has the definition of the old one. -/
theorem C26_rename {w : World} (h : Reach w) (old new : String) {i : Nat}
    (hf : w.bb.find old = some i) (hn : w.bb.find new = none) :
    (w.bb.substitute old new).getDef new = w.bb.getDef old := by
  have hlt := h.inv.coh.valid old i hf
  have hne : new ≠ old := by rintro rfl; rw [hf] at hn; cases hn
  have h1 : (rhss w.bb)[i]? = some w.bb.defs[i].rhs := by simp [rhss, hlt]
  rw [getDef_of hf h1]
  apply getDef_of (i := w.bb.defs.length)
  · rw [find_substitute _ _ _ i hf, hn]; simp [hne]
  · simp [rhss, Blackboard.substitute, hf, hlt, Definition.new]

/-! ## C26: rewriting -/

/-- A valuation gives each blackboard symbol the value of its definition. -/
def Consistent (I : Interp K) (B : Blackboard) (ρ : String → K) : Prop :=
  ∀ z i e, B.find z = some i → (rhss B)[i]? = some e → ρ z = eval I ρ e

/-- The indices of the symbolic sums and products in `e` are symbols that have no
definition and on which the value of no definition depends. -/
def IndicesApart (I : Interp K) (B : Blackboard) (e : Expr) : Prop :=
  ∀ k i a b c, Sub (.binder k i a b c) e → ∃ t, i = .sym t ∧ B.find t = none ∧
    ∀ r ∈ rhss B, ∀ (ρ : String → K) v, eval I (update ρ t v) r = eval I ρ r

theorem Consistent.update {I : Interp K} {B : Blackboard} {ρ : String → K} (h : Consistent I B ρ)
    {t : String} (ht : B.find t = none)
    (hr : ∀ r ∈ rhss B, ∀ (ρ : String → K) v, eval I (Function.update ρ t v) r = eval I ρ r) (v : K) :
    Consistent I B (Function.update ρ t v) := by
  intro z i e hz he
  have : z ≠ t := by rintro rfl; rw [ht] at hz; cases hz
  rw [Function.update_of_ne this, hr e (List.mem_of_getElem? he)]
  exact h z i e hz he

theorem eval_mapSyms (I : Interp K) (g : String → Expr) (P : (String → K) → Prop)
    (hg : ∀ ρ, P ρ → ∀ s, eval I ρ (g s) = ρ s) (e : Expr)
    (hb : ∀ k i a b c, Sub (.binder k i a b c) e → ∃ t, i = .sym t ∧ g t = .sym t ∧
      ∀ ρ v, P ρ → P (update ρ t v)) (ρ : String → K) (hρ : P ρ) :
    eval I ρ (mapSyms g e) = eval I ρ e := by
  induction e using Expr.ind generalizing ρ with
  | num q => simp [mapSyms]
  | const q => simp [mapSyms]
  | sym s => rw [mapSyms, hg ρ hρ]; simp [eval]
  | add l ih =>
    rw [mapSyms, eval_foldr_addE]
    simp only [eval, Rat.cast_zero, zero_add]
    congr 1
    exact List.map_congr_left fun a ha => ih a ha
      (fun k i x y z h => hb k i x y z (.add ha h)) ρ hρ
  | mul l ih =>
    rw [mapSyms, eval_foldr_mulE]
    simp only [eval, Rat.cast_one, one_mul]
    congr 1
    exact List.map_congr_left fun a ha => ih a ha
      (fun k i x y z h => hb k i x y z (.mul ha h)) ρ hρ
  | pow b e ihb ihe =>
    rw [mapSyms, eval_powE, eval, ihb (fun k i x y z h => hb k i x y z (.powB h)) ρ hρ,
      ihe (fun k i x y z h => hb k i x y z (.powE h)) ρ hρ]
  | fn f l ih =>
    rw [mapSyms, eval, eval, List.map_map]
    congr 1
    exact List.map_congr_left fun a ha => ih a ha
      (fun k i x y z h => hb k i x y z (.fn ha h)) ρ hρ
  | binder k i a b c hi ha hb' hc =>
    obtain ⟨t, rfl, h1, h2⟩ := hb k i a b c (.refl _)
    rw [mapSyms, eval, eval, ha (fun k i x y z h => hb k i x y z (.bLo h)) ρ hρ,
      hb' (fun k i x y z h => hb k i x y z (.bUp h)) ρ hρ]
    congr 1
    funext v
    simp only [mapSyms, h1, bindIdx]
    exact hc (fun k i x y z h => hb k i x y z (.bBody h)) _ (h2 ρ v hρ)

theorem eval_expand (I : Interp K) (B : Blackboard) (hr : ∀ r ∈ rhss B, IndicesApart I B r)
    (k : Nat) (e : Expr) (he : IndicesApart I B e) (ρ : String → K) (hρ : Consistent I B ρ) :
    eval I ρ (expand B.find (rhss B) k e) = eval I ρ e := by
  induction k using Nat.strong_induction_on generalizing e ρ with
  | _ k ih =>
    rw [expand_eq]
    refine eval_mapSyms I _ (Consistent I B) ?_ e ?_ ρ hρ
    · intro ρ hρ s
      unfold expandSym
      split
      · rename_i j hj
        split
        · rename_i hjk
          cases hjr : (rhss B)[j]? with
          | none => simp [eval]
          | some r =>
            simp only
            rw [ih j hjk r (hr r (List.mem_of_getElem? hjr)) ρ hρ]
            exact (hρ s j r hj hjr).symm
        · simp [eval]
      · simp [eval]
    · intro k' i a b c h
      obtain ⟨t, h1, h2, h3⟩ := he k' i a b c h
      exact ⟨t, h1, by simp [expandSym, h2], fun ρ v hρ => hρ.update h2 h3 v⟩

/-- **C26.** Rewriting does not change the value: under every valuation that gives the
blackboard symbols the values of their definitions, the rewritten expression has the value
of the original one. -/
theorem C26_rewrite_value {w : World} (h : Reach w) (I : Interp K) (e : Expr)
    (hr : ∀ r ∈ rhss w.bb, IndicesApart I w.bb r) (he : IndicesApart I w.bb e)
    (ρ : String → K) (hρ : Consistent I w.bb ρ) {e' : Expr} {B' : Blackboard}
    (hw : rewriteM w.bb.defs.length w.bb e = some (e', B')) : eval I ρ e' = eval I ρ e := by
  obtain ⟨B'', h1, _⟩ := C27_rewrite_not_stale h e
  rw [hw] at h1; cases h1
  exact eval_expand I w.bb hr _ e he ρ hρ

theorem no_defined_symbol (B : Blackboard) (hB : Coherent B) (k : Nat) (e : Expr)
    (he : Below B.find k e) (s : String) (h : Sub (.sym s) (expand B.find (rhss B) k e)) :
    B.find s = none := by
  induction k using Nat.strong_induction_on generalizing e with
  | _ k ih =>
    rw [expand_eq] at h
    obtain ⟨t, h1, h2⟩ := sub_mapSyms h
    unfold expandSym at h2
    split at h2
    · rename_i j hj
      have hjk := he t j h1 hj
      have hjl := hB.valid t j hj
      have : (rhss B)[j]? = some B.defs[j].rhs := by simp [rhss, hjl]
      simp only [hjk, dif_pos, this] at h2
      exact ih j hjk _ (hB.acyclic j _ (List.getElem?_eq_getElem hjl)) h2
    · rename_i hj
      rw [sub_sym] at h2
      exact h2 ▸ hj

/-- **C26.** No symbol of the blackboard is left in a rewritten expression. -/
theorem C26_rewrite_complete {w : World} (h : Reach w) (e : Expr) {e' : Expr} {B' : Blackboard}
    (hw : rewriteM w.bb.defs.length w.bb e = some (e', B')) (s : String) (hs : Sub (.sym s) e') :
    w.bb.find s = none := by
  obtain ⟨B'', h1, _⟩ := C27_rewrite_not_stale h e
  rw [hw] at h1; cases h1
  exact no_defined_symbol w.bb h.inv.coh _ e (h.inv.coh.below e) s hs

/-- The value of an expression only depends on the symbols in it. -/
theorem eval_congr (I : Interp K) (e : Expr) (ρ σ : String → K)
    (h : ∀ s, Sub (.sym s) e → ρ s = σ s) : eval I ρ e = eval I σ e := by
  induction e using Expr.ind generalizing ρ σ with
  | num q => simp [eval]
  | const q => simp [eval]
  | sym s => simp [eval]; exact h s (.refl _)
  | add l ih =>
    rw [eval, eval]; congr 1
    exact List.map_congr_left fun a ha => ih a ha ρ σ fun s hs => h s (.add ha hs)
  | mul l ih =>
    rw [eval, eval]; congr 1
    exact List.map_congr_left fun a ha => ih a ha ρ σ fun s hs => h s (.mul ha hs)
  | pow b e hb he =>
    rw [eval, eval, hb ρ σ fun s hs => h s (.powB hs), he ρ σ fun s hs => h s (.powE hs)]
  | fn f l ih =>
    rw [eval, eval]; congr 1
    exact List.map_congr_left fun a ha => ih a ha ρ σ fun s hs => h s (.fn ha hs)
  | binder k i a b c hi ha hb hc =>
    rw [eval, eval, ha ρ σ fun s hs => h s (.bLo hs), hb ρ σ fun s hs => h s (.bUp hs)]
    congr 1
    funext v
    refine hc _ _ fun s hs => ?_
    unfold bindIdx
    cases i with
    | sym t =>
      by_cases hst : s = t
      · simp [hst]
      · simp [Function.update_of_ne hst]; exact h s (.bBody hs)
    | _ => exact h s (.bBody hs)

/-- Values of the blackboard symbols defined below position `k`, from values of the others. -/
def solveVal (I : Interp K) (look : String → Option Nat) (rhs : List Expr) (ρ : String → K)
    (k : Nat) (s : String) : K :=
  match look s with
  | some j => if _h : j < k then
      (match rhs[j]? with | some r => eval I (solveVal I look rhs ρ j) r | none => ρ s) else ρ s
  | none => ρ s
termination_by k

theorem solveVal_stable (I : Interp K) {B : Blackboard} (ρ : String → K) {s : String} {j k k' : Nat}
    (hj : B.find s = some j) (h : j < k) (h' : j < k') :
    solveVal I B.find (rhss B) ρ k s = solveVal I B.find (rhss B) ρ k' s := by
  rw [solveVal, solveVal, hj]; simp [h, h']

/-- **C26.** Every valuation of the symbols without definition extends to a consistent one,
so the previous theorem is about every blackboard a program can build. -/
theorem C26_consistent_exists {w : World} (h : Reach w) (I : Interp K) (ρ : String → K) :
    ∃ σ : String → K, Consistent I w.bb σ ∧ ∀ s, w.bb.find s = none → σ s = ρ s := by
  set B := w.bb with hB
  have hc : Coherent B := h.inv.coh
  refine ⟨solveVal I B.find (rhss B) ρ B.defs.length, ?_, ?_⟩
  · intro z i e hz he
    have hi := hc.valid z i hz
    conv_lhs => rw [solveVal, hz]
    simp only [hi, dif_pos, he]
    apply eval_congr
    intro s hs
    cases hsf : B.find s with
    | none => rw [solveVal, solveVal, hsf]
    | some j =>
      have hd : B.defs[i]? = some B.defs[i] := List.getElem?_eq_getElem hi
      have : e = B.defs[i].rhs := by
        have := rhss_get hd; rw [he] at this; exact Option.some.inj this
      subst this
      exact solveVal_stable I ρ hsf (hc.acyclic i _ hd s j hs hsf) (hc.valid s j hsf)
  · intro s hs
    rw [solveVal, hs]

/-- The hypotheses are met: a two-step history with a definition using another. -/
def demoWorld : World :=
  ⟨((Blackboard.empty.insertDef (autoName 0) (.sym "a")).insertDef (autoName 1)
    (.add [.sym (autoName 0), .num 1])), 2⟩

theorem user_old (n : Nat) (s : String) (h : ¬ "symbol".toList <+: s.toList) : Old n s := by
  intro k hk
  exfalso; apply h
  rw [hk, autoName, String.toList_append]
  exact List.prefix_append _ _

theorem demoWorld_reach : Reach demoWorld := by
  refine .step (w := ⟨Blackboard.empty.insertDef (autoName 0) (.sym "a"), 1⟩)
    (.insert (.add [.sym (autoName 0), .num 1])) ?_ ?_ rfl
  · refine .step (w := ⟨Blackboard.empty, 0⟩) (.insert (.sym "a")) .init ?_ rfl
    intro s hs
    rw [sub_sym] at hs; subst hs
    exact user_old _ _ (by decide)
  · intro s hs
    rw [sub_add] at hs
    obtain ⟨a, ha, hs⟩ := hs
    simp at ha
    rcases ha with rfl | rfl
    · rw [sub_sym] at hs; subst hs
      intro k hk; have := autoName_inj hk; simp; omega
    · exact absurd hs sub_num

/-- **C26 fails for renamed symbols.**  After `substitute(symbol0, b)` a definition that
mentions `symbol0` still mentions it: the rewritten `symbol1` is `symbol0 + 1`, although
before the renaming it was `a + 1`. -/
theorem C104_dangling_refuted :
    (rewriteM 2 demoWorld.bb (.sym (autoName 1))).map Prod.fst = some (.add [.num 1, .sym "a"]) ∧
    (rewriteM 3 (demoWorld.bb.substitute (autoName 0) "b") (.sym (autoName 1))).map Prod.fst
      = some (.add [.num 1, .sym (autoName 0)]) := by
  have n0 : autoName 0 = "symbol0" := by decide
  have n1 : autoName 1 = "symbol1" := by decide
  constructor
  · simp [demoWorld, n0, n1, rewriteM, Blackboard.find, insertDef, Blackboard.empty, indexInsert,
      Definition.new, addE, setExp]
  · simp [demoWorld, n0, n1, rewriteM, Blackboard.find, insertDef, Blackboard.empty, indexInsert,
      Definition.new, addE, setExp, Blackboard.substitute]

/-! ## C28: finding the symbol of an expression -/

theorem find_of_nodup {ix : List (String × Nat)} (hn : (ix.map Prod.fst).Nodup) {z : String} {i : Nat}
    (h : (z, i) ∈ ix) : (ix.find? fun p => decide (p.1 = z)).map Prod.snd = some i := by
  induction ix with
  | nil => simp at h
  | cons p ix ih =>
    simp only [List.map_cons, List.nodup_cons, List.mem_map, not_exists, not_and] at hn
    rcases List.mem_cons.mp h with rfl | h
    · simp
    · have : p.1 ≠ z := fun hp => hn.1 (z, i) h hp.symm
      simp only [List.find?_cons, this, decide_false]
      exact ih hn.2 h

theorem findLoop_spec (e : Expr) (ds : List Definition) (ns : List String)
    (h : ds.length ≤ ns.length) :
    (findLoop e ds ns = .ok none ∧ ∀ d ∈ ds, d.rhs ≠ e) ∨
    ∃ (j : Nat) (s : String), findLoop e ds ns = .ok (some s) ∧ ns[j]? = some s ∧
      ∃ d : Definition, ds[j]? = some d ∧ d.rhs = e := by
  induction ds generalizing ns with
  | nil => left; simp [findLoop]
  | cons d ds ih =>
    cases ns with
    | nil => simp at h
    | cons n ns =>
      by_cases hd : d.rhs = e
      · right; exact ⟨0, n, by simp [findLoop, hd], rfl, d, rfl, hd⟩
      · rcases ih ns (by simpa using h) with ⟨h1, h2⟩ | ⟨j, s, h1, h2, h3⟩
        · left
          refine ⟨by simp [findLoop, hd, h1], ?_⟩
          intro d' hd'
          rcases List.mem_cons.mp hd' with rfl | h'
          · exact hd
          · exact h2 d' h'
        · right; exact ⟨j + 1, s, by simp [findLoop, hd, h1], h2, h3⟩

/-- **C28 (partial).**  If the names were created in their alphabetical order and nothing
was renamed, looking up an expression returns a symbol whose definition it is.
Missing: the other blackboards, for which it fails (see below). -/
theorem C28_find_symbol_partial (B : Blackboard) (z : String) (e : Expr)
    (hpos : B.index.map Prod.snd = List.range B.defs.length)
    (hn : (B.index.map Prod.fst).Nodup)
    (hord : (B.index.map Prod.fst).Pairwise (· ≤ ·)) (hz : B.find z = none) :
    ∃ s B', B.findSymbol z e = .ok (s, B') ∧ B'.getDef s = e ∧
      ((∃ d ∈ B.defs, d.rhs = e) → B' = B) := by
  have hs : B.sortedNames = B.index.map Prod.fst := by
    unfold sortedNames
    apply List.mergeSort_of_pairwise
    simpa using hord
  have hlen : B.index.length = B.defs.length := by
    have := congrArg List.length hpos; simpa using this
  unfold findSymbol
  rw [hs]
  rcases findLoop_spec e B.defs (B.index.map Prod.fst) (by simp [hlen]) with
    ⟨h1, h2⟩ | ⟨j, s, h1, h2, d, h3, h4⟩
  · refine ⟨z, B.insertDef z e, by rw [h1], ?_, ?_⟩
    · apply getDef_of (i := B.defs.length)
      · rw [find_insertDef, hz]; simp
      · rw [rhss_insertDef, List.getElem?_append_right (by simp [rhss])]; simp [rhss]
    · rintro ⟨d, hd, he⟩; exact absurd he (h2 d hd)
  · refine ⟨s, B, by rw [h1], ?_, fun _ => rfl⟩
    apply getDef_of (i := j)
    · have hj : j < B.defs.length := (List.getElem?_eq_some_iff.mp h3).1
      have h5 : B.index[j]? = some (s, j) := by
        simp only [List.getElem?_map, Option.map_eq_some_iff] at h2
        obtain ⟨⟨a, b⟩, h6, h7⟩ := h2
        have h8 := congrArg (fun l => l[j]?) hpos
        simp [h6, hj] at h8
        simp at h7
        rw [h6, h7, h8]
      exact find_of_nodup hn (List.mem_of_getElem? h5)
    · rw [rhss_get h3, h4]

/-- The hypotheses are met by every program that defines at most ten symbols and renames none:
the names `symbol0` ... `symbol9` are in order. -/
theorem C28_ten_names_in_order : ∀ i j : Fin 10, i ≤ j → autoName i ≤ autoName j := by decide

/-- Worlds reached without renaming. -/
inductive Reach0 : World → Prop
  | init : Reach0 ⟨Blackboard.empty, 0⟩
  | step {w w' : World} (op : Op) : Reach0 w → op.Valid w → (∀ a b, op ≠ .subst a b) →
      w.step op = some w' → Reach0 w'

theorem Reach0.reach {w : World} (h : Reach0 w) : Reach w := by
  induction h with
  | init => exact .init
  | step op _ hv _ hs ih => exact .step op ih hv hs

/-- The index lists the positions in order under names with increasing serial numbers. -/
def InOrder (w : World) : Prop := ∃ ks : List Nat, ks.Pairwise (· < ·) ∧ (∀ k ∈ ks, k < w.serial) ∧
  w.bb.index.map Prod.fst = ks.map autoName ∧ w.bb.index.map Prod.snd = List.range w.bb.defs.length

theorem InOrder.insert {w : World} (h : InOrder w) (hz : w.bb.find (autoName w.serial) = none)
    (e : Expr) : InOrder ⟨w.bb.insertDef (autoName w.serial) e, w.serial + 1⟩ := by
  obtain ⟨ks, h1, h2, h3, h4⟩ := h
  have hi : indexInsert w.bb.index (autoName w.serial) w.bb.defs.length
      = w.bb.index ++ [(autoName w.serial, w.bb.defs.length)] := by
    unfold indexInsert
    simp only [Blackboard.find, Option.map_eq_none_iff] at hz
    rw [hz]; simp
  refine ⟨ks ++ [w.serial], ?_, ?_, ?_, ?_⟩
  · rw [List.pairwise_append]; exact ⟨h1, by simp, by simpa using h2⟩
  · intro k hk; rcases List.mem_append.mp hk with hk | hk
    · have := h2 k hk; simp only; omega
    · simp at hk; simp only; omega
  · simp only [insertDef, hi, List.map_append, h3]; simp
  · simp only [insertDef, hi, List.map_append, h4]; simp [List.range_succ]

theorem InOrder.serial {w : World} (h : InOrder w) : InOrder ⟨w.bb, w.serial + 1⟩ := by
  obtain ⟨ks, h1, h2, h3, h4⟩ := h
  exact ⟨ks, h1, fun k hk => by have := h2 k hk; simp only; omega, h3, h4⟩

theorem InOrder.same {w : World} (h : InOrder w) {B' : Blackboard} (hs : SameDefs w.bb B') :
    InOrder ⟨B', w.serial⟩ := by
  obtain ⟨ks, h1, h2, h3, h4⟩ := h
  refine ⟨ks, h1, h2, by simp only [hs.1]; exact h3, ?_⟩
  have : B'.defs.length = w.bb.defs.length := by
    have := congrArg List.length hs.2.2; simpa [rhss] using this
  simp only [hs.1, this]; exact h4

theorem Reach.auto_none {w : World} (h : Reach w) : w.bb.find (autoName w.serial) = none := by
  cases hf : w.bb.find (autoName w.serial) with
  | none => rfl
  | some i => exact absurd (h.inv.names _ _ hf) (not_old_auto _)

theorem Reach0.inOrder {w : World} (h : Reach0 w) : InOrder w := by
  induction h with
  | init => exact ⟨[], by simp, by simp, by simp [Blackboard.empty], by simp [Blackboard.empty]⟩
  | @step w w' op hr hv hn hs ih =>
    have hz := hr.reach.auto_none
    cases op with
    | insert e => simp only [World.step, Option.some.injEq] at hs; subst hs; exact ih.insert hz e
    | newSymbol => simp only [World.step, Option.some.injEq] at hs; subst hs; exact ih.serial
    | rewrite e =>
      obtain ⟨B', h1, h3⟩ := C27_rewrite_not_stale hr.reach e
      simp only [World.step, h1, Option.map_some, Option.some.injEq] at hs
      subst hs; exact ih.same h3
    | size e =>
      obtain ⟨B', h1, h3⟩ := C27_size_not_stale hr.reach e
      simp only [World.step, h1, Option.map_some, Option.some.injEq] at hs
      subst hs; exact ih.same h3
    | find e =>
      simp only [World.step, Blackboard.findSymbol] at hs
      cases hl : findLoop e w.bb.defs w.bb.sortedNames with
      | ub => simp [hl] at hs
      | throws => simp [hl] at hs
      | ok o =>
        cases o with
        | none => simp only [hl, Option.some.injEq] at hs; subst hs; exact ih.insert hz e
        | some s => simp only [hl, Option.some.injEq] at hs; subst hs; exact ih.serial
    | subst a b => exact absurd rfl (hn a b)

/-- **C28 (partial).**  In every history without renaming in which the program has made at
most ten unnamed symbols, looking up an expression returns a symbol whose definition is that
expression.  Missing: longer histories and renamings, for which it fails (see below). -/
theorem C28_find_symbol_history_partial {w : World} (h : Reach0 w) (hs : w.serial ≤ 10) (e : Expr) :
    ∃ s B', w.bb.findSymbol (autoName w.serial) e = .ok (s, B') ∧ B'.getDef s = e ∧
      ((∃ d ∈ w.bb.defs, d.rhs = e) → B' = w.bb) := by
  obtain ⟨ks, h1, h2, h3, h4⟩ := h.inOrder
  apply C28_find_symbol_partial _ _ _ h4 _ _ h.reach.auto_none
  · rw [h3]
    exact (h1.imp (fun hab => ne_of_lt hab)).map autoName (fun a b hab he => hab (autoName_inj he))
  · rw [h3]
    have : ks.Pairwise fun a b => autoName a ≤ autoName b := by
      refine List.Pairwise.imp_of_mem ?_ h1
      intro a b ha hb hab
      exact C28_ten_names_in_order ⟨a, lt_of_lt_of_le (h2 a ha) hs⟩
        ⟨b, lt_of_lt_of_le (h2 b hb) hs⟩ (le_of_lt hab)
    exact List.pairwise_map.mpr this

theorem C28_find_symbol_example : ∃ s B', demoWorld.bb.findSymbol (autoName 2) (.sym "a") = .ok (s, B') ∧
    B'.getDef s = .sym "a" := by
  obtain ⟨s, B', h1, h2, _⟩ := C28_find_symbol_partial demoWorld.bb (autoName 2) (.sym "a")
    (by decide) (by decide) (by decide) (by decide)
  exact ⟨s, B', h1, h2⟩

/-- **C28 fails** as soon as the serial numbers pass from 9 to 10: looking up the definition
of `symbol9` returns `symbol10`. -/
theorem C28_find_symbol_refuted :
    let B := (Blackboard.empty.insertDef (autoName 9) (.sym "a")).insertDef (autoName 10) (.sym "b")
    B.getDef (autoName 9) = .sym "a" ∧ B.getDef (autoName 10) = .sym "b" ∧
    B.findSymbol (autoName 11) (.sym "a") = .ok (autoName 10, B) := by
  intro B
  have n0 : autoName 9 = "symbol9" := by decide
  have n1 : autoName 10 = "symbol10" := by decide
  have hs : B.sortedNames = ["symbol10", "symbol9"] := by
    have : B.index.map Prod.fst = ["symbol9", "symbol10"] := by
      simp [B, n0, n1, insertDef, indexInsert, Blackboard.empty]
    unfold sortedNames
    rw [this]
    simp [List.mergeSort, List.MergeSort.Internal.splitInTwo]
  refine ⟨by decide, by decide, ?_⟩
  unfold findSymbol
  rw [hs, n1]
  simp [B, n0, n1, insertDef, Blackboard.empty, findLoop, Definition.new]

/-- **C28 fails** after a renaming: the scan runs past the end of the map of names. -/
theorem C28_find_symbol_after_rename_refuted :
    ((Blackboard.empty.insertDef (autoName 0) (.sym "a")).substitute (autoName 0) "b").findSymbol
      (autoName 1) (.sym "c") = .ub := by
  have n0 : autoName 0 = "symbol0" := by decide
  simp [n0, findSymbol, insertDef, Blackboard.empty, findLoop, Definition.new, sortedNames,
    Blackboard.substitute, indexInsert, Blackboard.find]

/-! ## C56: sizes -/

/-- Replace symbols without simplifying anything. -/
def litSyms (g : String → Expr) : Expr → Expr
  | .add l => .add (l.map fun a => litSyms g a)
  | .mul l => .mul (l.map fun a => litSyms g a)
  | .pow b e => .pow (litSyms g b) (litSyms g e)
  | .fn f l => .fn f (l.map fun a => litSyms g a)
  | .binder k i lo up body =>
      .binder k (litSyms g i) (litSyms g lo) (litSyms g up) (litSyms g body)
  | .sym s => g s
  | .num q => .num q
  | .const c => .const c

/-- The expression obtained by writing out the definitions, nothing simplified. -/
def expandLit (look : String → Option Nat) (rhs : List Expr) (k : Nat) (e : Expr) : Expr :=
  litSyms (fun s =>
    match look s with
    | some j => if _h : j < k then
        (match rhs[j]? with | some r => expandLit look rhs j r | none => .sym s) else .sym s
    | none => .sym s) e
termination_by k

theorem sizeNorm_litSyms (g : String → Expr) (e : Expr) :
    sizeNorm (fun _ => 1) (litSyms g e) = sizeNorm (fun s => sizeNorm (fun _ => 1) (g s)) e := by
  induction e using Expr.ind with
  | num q => simp [litSyms, sizeNorm]
  | const q => simp [litSyms, sizeNorm]
  | sym s => simp [litSyms, sizeNorm]
  | add l ih =>
    simp only [litSyms, sizeNorm, List.map_map]
    congr 2; exact List.map_congr_left ih
  | mul l ih =>
    simp only [litSyms, sizeNorm, List.map_map]
    congr 2; exact List.map_congr_left ih
  | pow b e hb he => simp only [litSyms, sizeNorm, hb, he]
  | fn f l ih =>
    simp only [litSyms, sizeNorm, List.map_map]
    congr 2; exact List.map_congr_left ih
  | binder k i a b c hi ha hb hc => simp only [litSyms, sizeNorm, hi, ha, hb, hc]

theorem expandSize_lit (look : String → Option Nat) (rhs : List Expr) (k : Nat) (e : Expr) :
    sizeNorm (fun _ => 1) (expandLit look rhs k e) = expandSize look rhs k e := by
  induction k using Nat.strong_induction_on generalizing e with
  | _ k ih =>
    rw [expandLit, expandSize, sizeNorm_litSyms]
    congr 1
    funext s
    cases look s with
    | none => simp [sizeNorm]
    | some j =>
      simp only
      by_cases hj : j < k
      · simp only [hj, dif_pos]
        cases rhs[j]? with
        | none => simp [sizeNorm]
        | some r => exact ih j hj r
      · simp [hj, sizeNorm]

/-- **C56.**  The size the blackboard computes is the size of the expression with the
definitions written out in full. -/
theorem C56_size_of_expansion {w : World} (h : Reach w) (e : Expr) :
    ∃ B', sizeM w.bb.defs.length w.bb e = some
      (sizeNorm (fun _ => 1) (expandLit w.bb.find (rhss w.bb) w.bb.defs.length e), B') := by
  obtain ⟨B', h1, _⟩ := C27_size_not_stale h e
  exact ⟨B', by rw [h1, expandSize_lit]⟩

/-- **C56.**  The size is positive and a proper subterm is strictly smaller. -/
theorem sizeNorm_pos (e : Expr) : 1 ≤ sizeNorm (fun _ => 1) e := by
  cases e <;> simp [sizeNorm]

theorem sizeNorm_mem {l : List Expr} {a : Expr} (h : a ∈ l) :
    sizeNorm (fun _ => 1) a ≤ (l.map fun a => sizeNorm (fun _ => 1) a).sum :=
  List.single_le_sum (by simp) _ (List.mem_map.mpr ⟨a, h, rfl⟩)

theorem C56_size_monotone {a e : Expr} (h : Sub a e) :
    a = e ∨ sizeNorm (fun _ => 1) a < sizeNorm (fun _ => 1) e := by
  have key : sizeNorm (fun _ => 1) a ≤ sizeNorm (fun _ => 1) e ∧
      (a = e ∨ sizeNorm (fun _ => 1) a < sizeNorm (fun _ => 1) e) := by
    induction h with
    | refl => simp
    | add hm _ ih => have := sizeNorm_mem hm; simp only [sizeNorm]; omega
    | mul hm _ ih => have := sizeNorm_mem hm; simp only [sizeNorm]; omega
    | fn hm _ ih => have := sizeNorm_mem hm; simp only [sizeNorm]; omega
    | powB _ ih => simp only [sizeNorm]; omega
    | powE _ ih => simp only [sizeNorm]; omega
    | bI _ ih => simp only [sizeNorm]; omega
    | bLo _ ih => simp only [sizeNorm]; omega
    | bUp _ ih => simp only [sizeNorm]; omega
    | bBody _ ih => simp only [sizeNorm]; omega
  exact key.2

/-- **C56 fails** for the rewritten expression itself: rewriting simplifies, so
`symbol0 + c` with `symbol0 := a + b` is predicted to have size 5 and has size 4. -/
theorem C111_size_of_rewritten_refuted :
    let B := Blackboard.empty.insertDef (autoName 0) (.add [.sym "a", .sym "b"])
    (sizeM 1 B (.add [.sym (autoName 0), .sym "c"])).map Prod.fst = some 5 ∧
    (rewriteM 1 B (.add [.sym (autoName 0), .sym "c"])).map
      (fun r => sizeNorm (fun _ => 1) r.1) = some 4 := by
  have n0 : autoName 0 = "symbol0" := by decide
  constructor
  · simp [n0, sizeM, Blackboard.find, insertDef, Blackboard.empty, indexInsert,
      Definition.new, setSize]
  · simp [n0, rewriteM, Blackboard.find, insertDef, Blackboard.empty, indexInsert,
      Definition.new, addE, setExp, sizeNorm]

end Purrs
