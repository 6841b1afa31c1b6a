import Verif.Model.SimplifyOut
import Verif.Props.SimplifyPow
import Verif.Props.SimplifyRoot

/-!
# Simplification for output keeps the value (C96)
-/

set_option linter.unusedSectionVars false

namespace Purrs.SimplifyOut

open SimplifyPow (Ops simplifyPowers collectBaseExponent collectSameExponents collectSameBase PowOk OpsOk Lw Combinable Separate IsInt IntBind
  mapM_val simplifyPowers_val collectSameExponents_val collectSameBase_val intBind_real)
open SimplifyRoot (RealPow realPow_real redProd reduceProduct PosNumPows C78_red_prod C78_reduce_product)

/-! ## Specification -/

/-- The exponential is multiplicative. -/
structure ExpOk (I : Interp ℝ) : Prop where
  add : ∀ a b, I.fn .exp [a + b] = I.fn .exp [a] * I.fn .exp [b]
  zero : I.fn .exp [0] = 1

theorem expOk_real (ξ : ℝ → ℝ) : ExpOk (realInterp ξ) :=
  ⟨fun a b => by simp [realInterp, realFn, Real.exp_add], by simp [realInterp, realFn]⟩

section
variable (I : Interp ℝ) (O : Ops) (n : String) (input : Bool) (rec : Expr → Option Expr) (recOk : (String → ℝ) → Expr → Prop)

/-- A nested call on the expanded `a` is in the domain, and the expansion keeps the value of `a`. -/
def CallOk (ρ : String → ℝ) (a : Expr) : Prop := eval I ρ (O.expand a) = eval I ρ a ∧ recOk ρ (O.expand a)

/-- The power of a simplified base and exponent: a numeric power has a positive base, and every other power is in the domain of the
rules for powers (C52). -/
def PowOutOk (ρ : String → ℝ) (b x : Expr) : Prop :=
  (∀ q z, b = .num q → x = .num z → 0 < q) ∧
    (¬ (isNum b = true ∧ isNum x = true) → eval I ρ (O.expand (powE b x)) = eval I ρ (powE b x) ∧
      ∀ b' x', O.expand (powE b x) = .pow b' x' → PowOk I ρ (.pow b' x'))

/-- The base and the exponent of a power, and then the power, are in the domain. -/
def PowStepOk (ρ : String → ℝ) (f : Expr) : Prop :=
  ∀ b x, f = .pow b x → CallOk I O recOk ρ b ∧ CallOk I O recOk ρ x ∧
    ∀ b' x', rec (O.expand b) = some b' → rec (O.expand x) = some x' → PowOutOk I O ρ b' x'

/-- The arguments of a function are in the domain, for all integer values of the index of a symbolic sum or product. -/
def FnOk (ρ : String → ℝ) : Expr → Prop
  | .fn _ l => ∀ a ∈ l, CallOk I O recOk ρ a
  | .binder _ i lo up body => (∃ s, i = .sym s) ∧ CallOk I O recOk ρ lo ∧ CallOk I O recOk ρ up ∧
      ∀ z : ℤ, CallOk I O recOk (bindIdx ρ i (z : ℝ)) body
  | _ => True

/-- A product is in the domain of the rules for collecting powers (C52 and C81). -/
def CollectOk (ρ : String → ℝ) (t : Expr) : Prop :=
  ∀ m, t = .mul m → (∀ f ∈ m, Lw I ρ f) ∧
    ∀ m', collectSameExponents O n false m = .mul m' → (∀ f ∈ m', Combinable I ρ f) ∧ Separate m'

/-- The stages of `manip_factor` are in the domain. -/
def ManipOk (ρ : String → ℝ) (l : List Expr) : Prop :=
  (∀ f ∈ l, PowStepOk I O rec recOk ρ f) ∧
    ∀ e1, powers O n input rec l = some e1 → (∀ f ∈ factors e1, FnOk I O recOk ρ f) ∧
      ∀ e2, functions O rec e1 = some e2 → (∀ t ∈ addends (mergeExp e2), ∀ m, t = .mul m → PosNumPows m) ∧
        ∀ e4, reduceAll (mergeExp e2) = some e4 → ∀ t ∈ addends e4, CollectOk I O n ρ t

/-- One call is in the domain. -/
def StepOk (ρ : String → ℝ) : Expr → Prop
  | .add l => ∀ a ∈ l, CallOk I O recOk ρ a
  | .mul l => ManipOk I O n input rec recOk ρ l
  | .pow b x => PowStepOk I O rec recOk ρ (.pow b x) ∧
      ∀ r, powStep O n input rec (.pow b x) = some r → CollectOk I O n ρ r
  | e => FnOk I O recOk ρ e

end

/-- All the rules that are applied are in their domains. -/
def Ok (I : Interp ℝ) (O : Ops) (n : String) (input : Bool) : ℕ → (String → ℝ) → Expr → Prop
  | 0, _, _ => True
  | fuel + 1, ρ, e => StepOk I O n input (simplifyOut O n input fuel) (Ok I O n input fuel) ρ e

/-! ## The stages -/

section
variable {I : Interp ℝ} (hI : RealPow I) (hX : ExpOk I) {O : Ops} {n : String} {input : Bool} {rec : Expr → Option Expr}
  {recOk : (String → ℝ) → Expr → Prop} {ρ : String → ℝ}

theorem forall2_map {l m : List Expr} (h : List.Forall₂ (fun a b => eval I ρ b = eval I ρ a) l m) :
    (m.map fun a => eval I ρ a) = l.map fun a => eval I ρ a := by
  induction h with
  | nil => rfl
  | cons h _ ih => simp [h, ih]

theorem expE_val (e : Expr) : eval I ρ (expE e) = I.fn .exp [eval I ρ e] ∨ (e = .num 0 ∧ eval I ρ (expE e) = 1) := by
  unfold expE
  split
  · split
    · rename_i h
      right
      rw [h]
      simp [eval]
    · left
      simp [eval]
  · left
    simp [eval]

include hX in
theorem expE_val' (e : Expr) : eval I ρ (expE e) = I.fn .exp [eval I ρ e] := by
  rcases expE_val (I := I) (ρ := ρ) e with h | ⟨rfl, h⟩
  · exact h
  · rw [h]
    simp [eval, hX.zero]

include hI in
theorem powOut_val (hn : IsInt (ρ n)) {b x : Expr} (h : PowOutOk I O ρ b x) :
    eval I ρ (powOut O n input b x) = eval I ρ (.pow b x) := by
  obtain ⟨h1, h2⟩ := h
  unfold powOut
  split
  · rename_i q z
    rw [C78_red_prod hI ρ (h1 q z rfl rfl) (by norm_num), eval, hI]
    simp [eval]
  · rename_i hne
    have hnum : ¬ (isNum b = true ∧ isNum x = true) := by
      rintro ⟨hb, hx⟩
      cases b <;> cases x <;> simp [isNum] at hb hx
      exact hne _ _ rfl rfl
    obtain ⟨h3, h4⟩ := h2 hnum
    have h5 : eval I ρ (.pow b x) = eval I ρ (powE b x) := by rw [eval_powE, eval]
    split
    · rename_i b' x' he
      rw [(simplifyPowers_val hI ρ O hn (h4 b' x' he) input).1, h5, ← h3, he]
    · rw [h5, h3]

theorem call_val (hrec : ∀ {a b : Expr} {ρ : String → ℝ}, IsInt (ρ n) → recOk ρ a → rec a = some b → eval I ρ b = eval I ρ a)
    (hn : IsInt (ρ n)) {a b : Expr} (h : CallOk I O recOk ρ a) (hb : rec (O.expand a) = some b) : eval I ρ b = eval I ρ a :=
  (hrec hn h.2 hb).trans h.1

include hI in
theorem powStep_val (hrec : ∀ {a b : Expr} {ρ : String → ℝ}, IsInt (ρ n) → recOk ρ a → rec a = some b → eval I ρ b = eval I ρ a)
    (hn : IsInt (ρ n)) {f r : Expr} (h : PowStepOk I O rec recOk ρ f) (hr : powStep O n input rec f = some r) : eval I ρ r = eval I ρ f := by
  cases f with
  | pow b x =>
    obtain ⟨h1, h2, h3⟩ := h b x rfl
    obtain ⟨b', hb, hr⟩ := Option.bind_eq_some_iff.mp hr
    obtain ⟨x', hx, rfl⟩ := Option.map_eq_some_iff.mp hr
    rw [powOut_val hI hn (h3 b' x' hb hx), eval, eval, call_val hrec hn h1 hb, call_val hrec hn h2 hx]
  | _ =>
    simp only [powStep, Option.some.injEq] at hr
    rw [hr]

theorem fnStep_val (hB : IntBind I) (hsym : ∀ s, O.expand (.sym s) = .sym s) (hrs : ∀ s b, rec (.sym s) = some b → b = .sym s)
    (hrec : ∀ {a b : Expr} {ρ : String → ℝ}, IsInt (ρ n) → recOk ρ a → rec a = some b → eval I ρ b = eval I ρ a)
    (hn : IsInt (ρ n)) {f r : Expr} (h : FnOk I O recOk ρ f) (hr : fnStep O rec f = some r) : eval I ρ r = eval I ρ f := by
  cases f with
  | fn g l =>
    obtain ⟨m, hm, rfl⟩ := Option.map_eq_some_iff.mp hr
    rw [FnOk] at h
    have hf := mapM_val (P := fun a b => eval I ρ b = eval I ρ a) hm fun a ha b hb => call_val hrec hn (h a ha) hb
    rw [eval, eval, forall2_map hf]
  | binder κ i lo up body =>
    rw [FnOk] at h
    obtain ⟨⟨s, rfl⟩, h1, h2, h3⟩ := h
    obtain ⟨i', hi, h⟩ := Option.bind_eq_some_iff.mp hr
    obtain ⟨lo', hl, h⟩ := Option.bind_eq_some_iff.mp h
    obtain ⟨up', hu, h⟩ := Option.bind_eq_some_iff.mp h
    obtain ⟨body', hb, rfl⟩ := Option.map_eq_some_iff.mp h
    rw [hsym] at hi
    have hi' := hrs s i' hi
    subst hi'
    rw [eval, eval, call_val hrec hn h1 hl, call_val hrec hn h2 hu]
    refine hB _ _ _ _ _ fun z => call_val hrec ?_ (h3 z) hb
    simp only [bindIdx]
    by_cases hs : n = s
    · subst hs; exact ⟨z, by simp⟩
    · rw [Function.update_of_ne hs]; exact hn
  | _ =>
    simp only [fnStep, Option.some.injEq] at hr
    rw [hr]

theorem part_val (p : Expr → Bool) (l : List Expr) :
    eval I ρ (part p true l) * eval I ρ (part p false l) = eval I ρ (.mul l) := by
  induction l with
  | nil => simp [part, eval]
  | cons a l ih =>
    rw [part, part, List.foldr_cons, List.foldr_cons]
    rw [part, part] at ih
    have h2 : eval I ρ (.mul (a :: l)) = eval I ρ a * eval I ρ (.mul l) := by simp [eval]
    rw [h2, ← ih]
    cases hp : p a
    · simp only [Bool.false_eq_true, if_false, if_true, eval_mulE]
      ring
    · simp only [Bool.true_eq_false, if_false, if_true, eval_mulE]
      ring

include hX in
theorem mergeExp_val (e : Expr) : eval I ρ (mergeExp e) = eval I ρ e := by
  unfold mergeExp
  split
  · rename_i l
    rw [eval_mulE, expE_val' hX]
    induction l with
    | nil => simp [part, eval, hX.zero]
    | cons a l ih =>
      have h2 : eval I ρ (.mul (a :: l)) = eval I ρ a * eval I ρ (.mul l) := by simp [eval]
      rw [h2, ← ih]
      rw [part, part, List.foldr_cons, List.foldr_cons]
      cases ha : expArg a with
      | none =>
        simp only [Option.isSome_none, if_true, eval_mulE]
        ring
      | some c =>
        have : eval I ρ a = I.fn .exp [eval I ρ c] := by
          unfold expArg at ha
          split at ha
          · simp only [Option.some.injEq] at ha
            rw [ha]
            simp [eval]
          · simp at ha
        simp only [Option.isSome_some, Bool.true_eq_false, if_false, eval_addE]
        rw [hX.add, this]
        ring
  · rfl

include hI in
theorem reduceTerm_val {t r : Expr} (h : ∀ m, t = .mul m → PosNumPows m) (hr : reduceTerm t = some r) : eval I ρ r = eval I ρ t := by
  cases t with
  | mul m =>
    obtain ⟨r', h1, h2⟩ := C78_reduce_product hI ρ (h m rfl)
    rw [reduceTerm, h1] at hr
    cases hr
    exact h2
  | _ =>
    simp only [reduceTerm, Option.some.injEq] at hr
    rw [hr]

include hI in
theorem reduceAll_val {e r : Expr} (h : ∀ t ∈ addends e, ∀ m, t = .mul m → PosNumPows m) (hr : reduceAll e = some r) :
    eval I ρ r = eval I ρ e := by
  cases e with
  | add l =>
    obtain ⟨m, hm, rfl⟩ := Option.map_eq_some_iff.mp hr
    have hf := mapM_val (P := fun a b => eval I ρ b = eval I ρ a) hm fun a ha b hb => reduceTerm_val hI (h a (by simpa [addends] using ha)) hb
    rw [eval_foldr_addE, forall2_map hf, eval]
    simp [eval]
  | _ => exact reduceTerm_val hI (h _ (by simp [addends])) hr

include hI in
theorem collectTerm_val (hO : OpsOk I ρ O) {t : Expr} (h : CollectOk I O n ρ t) : eval I ρ (collectTerm O n t) = eval I ρ t := by
  cases t with
  | mul m =>
    obtain ⟨h1, h2⟩ := h m rfl
    have h3 := (collectSameExponents_val hI ρ hO n false h1).1
    rw [collectTerm, collectBaseExponent]
    split
    · rename_i m' hm
      obtain ⟨h4, h5⟩ := h2 m' hm
      rw [collectSameBase_val hI ρ h4 h5, ← hm, h3]
    · exact h3
  | _ => rfl

include hI in
theorem collectAll_val (hO : OpsOk I ρ O) {e : Expr} (h : ∀ t ∈ addends e, CollectOk I O n ρ t) :
    eval I ρ (collectAll O n e) = eval I ρ e := by
  cases e with
  | add l =>
    rw [collectAll, eval_foldr_addE, eval]
    rw [List.map_congr_left fun a ha => collectTerm_val hI hO (h a (by simpa [addends] using ha))]
    simp [eval]
  | _ =>
    simp only [addends, List.mem_singleton, forall_eq] at h
    exact collectTerm_val hI hO h

include hI hX in
theorem manipFactor_val (hB : IntBind I) (hO : OpsOk I ρ O) (hsym : ∀ s, O.expand (.sym s) = .sym s)
    (hrs : ∀ s b, rec (.sym s) = some b → b = .sym s)
    (hrec : ∀ {a b : Expr} {ρ : String → ℝ}, IsInt (ρ n) → recOk ρ a → rec a = some b → eval I ρ b = eval I ρ a)
    (hn : IsInt (ρ n)) {l : List Expr} {r : Expr} (h : ManipOk I O n input rec recOk ρ l) (hr : manipFactor O n input rec l = some r) :
    eval I ρ r = eval I ρ (.mul l) := by
  obtain ⟨e1, he1, hr⟩ := Option.bind_eq_some_iff.mp hr
  obtain ⟨e2, he2, hr⟩ := Option.bind_eq_some_iff.mp hr
  obtain ⟨e4, he4, rfl⟩ := Option.map_eq_some_iff.mp hr
  obtain ⟨h1, h⟩ := h
  obtain ⟨h2, h⟩ := h e1 he1
  obtain ⟨h3, h⟩ := h e2 he2
  rw [collectAll_val hI hO (h e4 he4), reduceAll_val hI h3 he4, mergeExp_val hX]
  have v1 : eval I ρ e1 = eval I ρ (.mul l) := by
    obtain ⟨m, hm, rfl⟩ := Option.map_eq_some_iff.mp he1
    have hf := mapM_val (P := fun a b => eval I ρ b = eval I ρ a) hm fun a ha b hb => powStep_val hI hrec hn (h1 a ha) hb
    rw [eval_foldr_mulE, forall2_map hf, eval]
    simp [eval]
  rw [← v1]
  cases e1 with
  | mul l =>
    obtain ⟨m, hm, rfl⟩ := Option.map_eq_some_iff.mp he2
    have hf := mapM_val (P := fun a b => eval I ρ b = eval I ρ a) hm fun a ha b hb =>
      fnStep_val hB hsym hrs hrec hn (h2 a (by simpa [factors] using ha)) hb
    rw [eval_mulE, part_val, eval, eval, forall2_map hf]
  | _ => exact fnStep_val hB hsym hrs hrec hn (h2 _ (by simp [factors])) he2

end

theorem simplifyOut_sym (O : Ops) (n : String) (input : Bool) (k : ℕ) (s : String) (b : Expr)
    (h : simplifyOut O n input k (.sym s) = some b) : b = .sym s := by
  cases k with
  | zero => simp [simplifyOut] at h
  | succ k => simp only [simplifyOut, step, fnStep, Option.some.injEq] at h; exact h.symm

/-- **C96**: the simplification for output keeps the value of an expression, if every rule that is applied is in its domain. -/
theorem C96_simplify_output_partial {I : Interp ℝ} (hI : RealPow I) (hX : ExpOk I) (hB : IntBind I) {O : Ops} (hO : ∀ ρ, OpsOk I ρ O)
    (hsym : ∀ s, O.expand (.sym s) = .sym s) {n : String} {input : Bool} {fuel : ℕ} {e r : Expr}
    (h : simplifyOut O n input fuel e = some r) {ρ : String → ℝ} (hn : IsInt (ρ n)) (hg : Ok I O n input fuel ρ e) :
    eval I ρ r = eval I ρ e := by
  induction fuel generalizing e r ρ with
  | zero => simp [simplifyOut] at h
  | succ k ih =>
    have hrs := simplifyOut_sym O n input k
    have hrec : ∀ {a b : Expr} {ρ : String → ℝ}, IsInt (ρ n) → Ok I O n input k ρ a → simplifyOut O n input k a = some b →
        eval I ρ b = eval I ρ a := fun hn ha hb => ih hb hn ha
    rw [simplifyOut] at h
    rw [Ok] at hg
    cases e with
    | add l =>
      obtain ⟨m, hm, rfl⟩ := Option.map_eq_some_iff.mp h
      rw [StepOk] at hg
      have hf := mapM_val (P := fun a b => eval I ρ b = eval I ρ a) hm fun a ha b hb => call_val hrec hn (hg a ha) hb
      rw [eval_foldr_addE, forall2_map hf, eval]
      simp [eval]
    | mul l => exact manipFactor_val hI hX hB (hO ρ) hsym hrs hrec hn hg h
    | pow b x =>
      obtain ⟨r', hr, rfl⟩ := Option.map_eq_some_iff.mp h
      rw [StepOk] at hg
      rw [collectTerm_val hI (hO ρ) (hg.2 r' hr), powStep_val hI hrec hn hg.1 hr]
    | fn g l => exact fnStep_val hB hsym hrs hrec hn hg h
    | binder κ i lo up body => exact fnStep_val hB hsym hrs hrec hn hg h
    | num q => exact fnStep_val hB hsym hrs hrec hn hg h
    | const q => exact fnStep_val hB hsym hrs hrec hn hg h
    | sym q => exact fnStep_val hB hsym hrs hrec hn hg h

/-! ## C96: negative numbers -/

open SimplifyRoot (reduceToStd reduceTail signE topOf botOf signedDen toStdForm stdStep commonIndex irrPart pf1 pf2 pf4 prodLoop
  prodStep absorb takeFactor)
open SimplifyPow (basesExps asPair collectExp absorbExp isRest)

theorem pf8 : partialFactor 8 = [(2, 3)] := by
  have h0 : stripFactor 2 1 3 = (1, 3) := by rw [stripFactor]; simp
  have h1 : stripFactor 2 2 2 = (1, 3) := by rw [stripFactor]; simp [h0]
  have h2 : stripFactor 2 4 1 = (1, 3) := by rw [stripFactor]; simp [h1]
  have h2 : stripFactor 2 8 0 = (1, 3) := by rw [stripFactor]; simp [h2]
  have h3 : factorLoop 100 3 1 [(2, 3)] = (1, [(2, 3)]) := by rw [factorLoop]; simp
  simp [partialFactor, h2, h3]

theorem reduce_3_2 : reduceToStd 3 2 = .pow (.num 2) (.num (1 / 3)) := by
  simp only [reduceToStd, signE, topOf, botOf]
  norm_num [reduceTail, pf2, pf1, toStdForm, stdStep, commonIndex, irrPart, mulE, powE]

theorem reduce_3_4 : reduceToStd 3 4 = .pow (.num 4) (.num (1 / 3)) := by
  simp only [reduceToStd, signE, topOf, botOf]
  norm_num [reduceTail, pf4, pf1, toStdForm, stdStep, commonIndex, irrPart, mulE, powE]

theorem reduce_3_8 : reduceToStd 3 8 = .num 2 := by
  simp only [reduceToStd, signE, topOf, botOf]
  norm_num [reduceTail, pf8, pf1, toStdForm, stdStep, commonIndex, irrPart, mulE, powE]

/-- Operations that change nothing. -/
def idOps : Ops := ⟨id, id, fun _ _ => false, fun _ _ => false⟩

theorem idOps_ok (I : Interp ℝ) (ρ : String → ℝ) : OpsOk I ρ idOps := ⟨fun _ => ⟨rfl, id⟩, by simp [idOps]⟩

/-- `-1 · 2^{1/3} · 4^{1/3}`. -/
def exRoots : List Expr := [.num (-1), .pow (.num 2) (.num (1 / 3)), .pow (.num 4) (.num (1 / 3))]

/-- `1 / (1 - 2^{1/3} 4^{1/3})`. -/
def exNeg : Expr := .pow (.add [.num 1, .mul exRoots]) (.num (-1))

theorem red1 : redProd 2 (1 / 3) 1 1 = .pow (.num 2) (.num (1 / 3)) := by
  rw [← reduce_3_2]
  norm_num [redProd, signedDen]

theorem red2 : redProd 4 (1 / 3) 1 1 = .pow (.num 4) (.num (1 / 3)) := by
  rw [← reduce_3_4]
  norm_num [redProd, signedDen]

theorem red3 : redProd 1 1 2 (1 / 3) = .pow (.num 2) (.num (1 / 3)) := by
  rw [← reduce_3_2]
  norm_num [redProd, signedDen]

theorem red4 : redProd 2 (1 / 3) 4 (1 / 3) = .num 2 := by
  rw [← reduce_3_8]
  norm_num [redProd, signedDen]

theorem exRoots_value (n : String) (k : ℕ) : simplifyOut idOps n false (k + 2) (.mul exRoots) = some (.num (-2)) := by
  have hnum : ∀ q, simplifyOut idOps n false (k + 1) (.num q) = some (.num q) := fun q => rfl
  have t : ¬ (1 / 3 : ℚ) = 1 := by norm_num
  have t0 : ¬ (1 / 3 : ℚ) = 0 := by norm_num
  have td : ¬ (1 / 3 : ℚ).den = 1 := by norm_num
  have e1 : powers idOps n false (simplifyOut idOps n false (k + 1)) exRoots =
      some (.mul [.pow (.num 4) (.num (1 / 3)), .pow (.num 2) (.num (1 / 3)), .num (-1)]) := by
    have a1 : powStep idOps n false (simplifyOut idOps n false (k + 1)) (.num (-1)) = some (.num (-1)) := rfl
    have a2 : powStep idOps n false (simplifyOut idOps n false (k + 1)) (.pow (.num 2) (.num (1 / 3))) =
        some (.pow (.num 2) (.num (1 / 3))) := by
      simp only [powStep, idOps, id, simplifyOut, step, fnStep, Option.bind_some, Option.map_some, powOut, red1]
    have a3 : powStep idOps n false (simplifyOut idOps n false (k + 1)) (.pow (.num 4) (.num (1 / 3))) =
        some (.pow (.num 4) (.num (1 / 3))) := by
      simp only [powStep, idOps, id, simplifyOut, step, fnStep, Option.bind_some, Option.map_some, powOut, red2]
    simp only [powers, exRoots, List.mapM_cons, List.mapM_nil, a1, a2, a3, Option.pure_def, Option.bind_eq_bind, Option.bind_some,
      Option.map_some, List.foldr_cons, List.foldr_nil]
    norm_num [mulE]
  have e2 : functions idOps (simplifyOut idOps n false (k + 1))
      (.mul [.pow (.num 4) (.num (1 / 3)), .pow (.num 2) (.num (1 / 3)), .num (-1)]) =
      some (.mul [.num (-1), .pow (.num 2) (.num (1 / 3)), .pow (.num 4) (.num (1 / 3))]) := by
    simp only [functions, List.mapM_cons, List.mapM_nil, fnStep, Option.pure_def, Option.bind_eq_bind, Option.bind_some,
      Option.map_some, part, isFn, List.foldr_cons, List.foldr_nil]
    norm_num [mulE]
  have e3 : mergeExp (.mul [.num (-1), .pow (.num 2) (.num (1 / 3)), .pow (.num 4) (.num (1 / 3))]) =
      .mul [.pow (.num 4) (.num (1 / 3)), .pow (.num 2) (.num (1 / 3)), .num (-1)] := by
    simp only [mergeExp, expArg, part, List.foldr_cons, List.foldr_nil, expE]
    norm_num [mulE]
  have e4 : reduceAll (.mul [.pow (.num 4) (.num (1 / 3)), .pow (.num 2) (.num (1 / 3)), .num (-1)]) = some (.num (-2)) := by
    have r4 : redProd 2 (1 / 3) 4 (1 / 3) = .num 2 := red4
    simp only [reduceAll, reduceTerm, reduceProduct, prodLoop, prodStep, Option.bind_some, red3, absorb, red4, Option.map_some]
    norm_num [mulE]
  show manipFactor idOps n false (simplifyOut idOps n false (k + 1)) exRoots = _
  simp only [manipFactor, e1, Option.bind_some, e2, e3, e4, Option.map_some]
  rfl

/-- **C96** is false for negative numbers: the simplified base of `1 / (1 - 2^{1/3} 4^{1/3})` is the number `-1`, and the
power `(-1)^{-1}` becomes `1`. -/
theorem C96_negative_number_refuted (ξ : ℝ → ℝ) (n : String) (k : ℕ) (ρ : String → ℝ) :
    simplifyForOutput idOps n false (k + 4) exNeg = some (.num 1) ∧ eval (realInterp ξ) ρ exNeg = -1 := by
  constructor
  · have h1 : simplifyOut idOps n false (k + 3) (.add [.num 1, .mul exRoots]) = some (.num (-1)) := by
      have : simplifyOut idOps n false (k + 2) (.num 1) = some (.num 1) := rfl
      rw [simplifyOut, step]
      simp only [List.mapM_cons, List.mapM_nil, Option.pure_def, Option.bind_eq_bind]
      rw [show idOps.expand (.num 1) = .num 1 from rfl, show idOps.expand (.mul exRoots) = .mul exRoots from rfl, this,
        exRoots_value]
      norm_num [addE]
    have h2 : redProd (-1) (-1) 1 1 = .num 1 := by
      norm_num [redProd, signedDen, reduceToStd, signE, topOf, botOf, mulE]
    have h3 : simplifyOut idOps n false (k + 3) (.num (-1)) = some (.num (-1)) := rfl
    rw [simplifyForOutput, show idOps.expand exNeg = exNeg from rfl, simplifyOut, exNeg, step, powStep]
    rw [show idOps.expand (.add [.num 1, .mul exRoots]) = .add [.num 1, .mul exRoots] from rfl,
      show idOps.expand (.num (-1)) = .num (-1) from rfl, h1, h3]
    simp only [Option.bind_some, Option.map_some, powOut, h2, collectTerm]
  · have h : (2 : ℝ) ^ ((1 : ℝ) / 3) * (4 : ℝ) ^ ((1 : ℝ) / 3) = 2 := by
      rw [← Real.mul_rpow (by norm_num) (by norm_num), show (2 : ℝ) * 4 = 2 ^ (3 : ℝ) by norm_num, ← Real.rpow_mul (by norm_num)]
      norm_num
    have hv : eval (realInterp ξ) ρ (.add [.num 1, .mul exRoots]) = -1 := by
      simp only [exRoots, eval, List.map_cons, List.map_nil, List.sum_cons, List.sum_nil, List.prod_cons, List.prod_nil, realInterp]
      push_cast
      linear_combination -h
    rw [exNeg, eval, hv]
    simp [realInterp, eval, Real.rpow_neg_one]

/-- `x · x^y · exp(a) · exp(b)`. -/
def exMixed : List Expr := [.sym "x", .pow (.sym "x") (.sym "y"), .fn .exp [.sym "a"], .fn .exp [.sym "b"]]

/-- `exp(b + a)`. -/
def exExp : Expr := .fn .exp [.add [.sym "b", .sym "a"]]

section
variable {O : Ops} (hE : O.expand = id) (hN : O.nd (.sym "x") = .sym "x") (n : String) (k : ℕ)

include hE in
theorem mixed_powers : powers O n false (simplifyOut O n false (k + 1)) exMixed =
    some (.mul [.fn .exp [.sym "b"], .fn .exp [.sym "a"], .pow (.sym "x") (.sym "y"), .sym "x"]) := by
  have a2 : powStep O n false (simplifyOut O n false (k + 1)) (.pow (.sym "x") (.sym "y")) =
      some (.pow (.sym "x") (.sym "y")) := by
    simp [powStep, hE, simplifyOut, step, fnStep, powOut, powE, simplifyPowers, SimplifyPow.realBase, SimplifyPow.splitExp,
      factors, isNum, SimplifyPow.returnPower, mulE]
  simp only [powers, exMixed, List.mapM_cons, List.mapM_nil, a2, Option.pure_def, Option.bind_eq_bind, Option.bind_some,
    Option.map_some, List.foldr_cons, List.foldr_nil]
  simp [powStep, mulE]

include hE in
theorem mixed_functions : functions O (simplifyOut O n false (k + 1))
    (.mul [.fn .exp [.sym "b"], .fn .exp [.sym "a"], .pow (.sym "x") (.sym "y"), .sym "x"]) =
    some (.mul [.fn .exp [.sym "a"], .fn .exp [.sym "b"], .sym "x", .pow (.sym "x") (.sym "y")]) := by
  simp [functions, fnStep, hE, simplifyOut, step, part, isFn, mulE]

theorem mixed_merge : mergeExp (.mul [.fn .exp [.sym "a"], .fn .exp [.sym "b"], .sym "x", .pow (.sym "x") (.sym "y")]) =
    .mul [exExp, .pow (.sym "x") (.sym "y"), .sym "x"] := by
  simp [mergeExp, expArg, part, mulE, addE, expE, exExp]

theorem mixed_reduce : reduceAll (.mul [exExp, .pow (.sym "x") (.sym "y"), .sym "x"]) =
    some (.mul [.sym "x", .pow (.sym "x") (.sym "y"), exExp]) := by
  simp [reduceAll, reduceTerm, reduceProduct, prodLoop, prodStep, mulE, exExp]

include hN in
theorem mixed_collect : collectSameExponents O n false [.sym "x", .pow (.sym "x") (.sym "y"), exExp] =
    .mul [.pow (.sym "x") (.sym "y"), exExp, .sym "x"] := by
  simp [collectSameExponents, basesExps, asPair, collectExp, absorbExp, isRest, hN, mulE, powE, exExp]

include hE hN in
theorem mixed_ok (I : Interp ℝ) (ρ : String → ℝ) (hx : 0 < ρ "x") :
    Ok I O n false (k + 2) ρ (.mul exMixed) ∧
      simplifyForOutput O n false (k + 2) (.mul exMixed) =
        some (.mul [.pow (.sym "x") (.add [.sym "y", .num 1]), exExp]) := by
  have hs : ∀ (ρ : String → ℝ) s, Ok I O n false (k + 1) ρ (.sym s) := fun ρ s => by simp [Ok, StepOk, FnOk]
  have hr : ∀ s, simplifyOut O n false (k + 1) (O.expand (.sym s)) = some (.sym s) := fun s => by rw [hE]; rfl
  have hc : ∀ (ρ : String → ℝ) s, CallOk I O (Ok I O n false (k + 1)) ρ (.sym s) :=
    fun ρ s => ⟨by rw [hE]; rfl, by rw [hE]; exact hs ρ s⟩
  constructor
  · rw [Ok, StepOk]
    refine ⟨?_, fun e1 h1 => ?_⟩
    · intro f hf b x hfe
      simp only [exMixed, List.mem_cons, List.not_mem_nil, or_false] at hf
      rcases hf with rfl | rfl | rfl | rfl <;> cases hfe
      refine ⟨hc _ _, hc _ _, fun b' x' hb hx' => ?_⟩
      rw [hr] at hb hx'
      cases hb; cases hx'
      refine ⟨fun q z h => by simp at h, fun _ => ⟨by rw [hE]; rfl, fun b' x' h => ?_⟩⟩
      have h : Expr.pow (.sym "x") (.sym "y") = .pow b' x' := by rw [hE] at h; exact h
      cases h
      intro a ha
      simp [SimplifyPow.root, SimplifyPow.baseFactors] at ha
      subst ha
      exact ⟨by simp [SimplifyPow.root, Lw], Or.inl (by simpa [SimplifyPow.root, eval] using hx)⟩
    · rw [mixed_powers hE] at h1
      cases h1
      refine ⟨?_, fun e2 h2 => ?_⟩
      · intro f hf
        simp only [factors, List.mem_cons, List.not_mem_nil, or_false] at hf
        rcases hf with rfl | rfl | rfl | rfl <;> simp [FnOk, hc]
      · rw [mixed_functions hE] at h2
        cases h2
        rw [mixed_merge]
        refine ⟨?_, fun e4 h4 => ?_⟩
        · intro t ht m hm
          simp only [addends, List.mem_singleton] at ht
          subst ht
          cases hm
          intro b e h
          simp [exExp] at h
        · rw [mixed_reduce] at h4
          cases h4
          intro t ht m hm
          simp only [addends, List.mem_singleton] at ht
          subst ht
          cases hm
          refine ⟨?_, fun m' hm' => ?_⟩
          · intro f hf
            simp only [List.mem_cons, List.not_mem_nil, or_false] at hf
            rcases hf with rfl | rfl | rfl
            · simp [Lw]
            · rw [Lw]
              exact ⟨by simp [Lw], Or.inl (by simpa [eval] using hx)⟩
            · simp [exExp, Lw]
          · rw [mixed_collect hN] at hm'
            cases hm'
            constructor
            · intro f hf b e h
              simp only [List.mem_cons, List.not_mem_nil, or_false] at hf
              rcases hf with rfl | rfl | rfl
              · cases h
                exact Or.inl (by simpa [eval] using hx)
              · cases h
              · cases h
            · simp [Separate, asPair, SimplifyPow.collectBase, SimplifyPow.absorbBase, powE, mulE, SimplifyPow.FoldOk, isRest,
                SimplifyPow.matchBase, exExp]
  · rw [simplifyForOutput, hE]
    show manipFactor O n false (simplifyOut O n false (k + 1)) exMixed = _
    rw [manipFactor, mixed_powers hE, Option.bind_some, mixed_functions hE, Option.bind_some, mixed_merge, mixed_reduce, Option.map_some,
      collectAll, collectTerm, collectBaseExponent, mixed_collect hN]
    · simp [collectSameBase, basesExps, asPair, SimplifyPow.collectBase, SimplifyPow.absorbBase, powE, mulE, isRest,
        SimplifyPow.matchBase, exExp, SimplifyPow.baseStep, SimplifyPow.plusOne, substitute, addE]
    · simp

end

/-- The hypotheses of **C96** hold for `x · x^y · exp(a) · exp(b)` with positive `x`; the result is `x^{y+1} exp(b + a)`. -/
theorem C96_nonvacuous (n : String) (k : ℕ) (ξ : ℝ → ℝ) (ρ : String → ℝ) (hx : 0 < ρ "x") :
    Ok (realInterp ξ) idOps n false (k + 2) ρ (.mul exMixed) ∧
      simplifyForOutput idOps n false (k + 2) (.mul exMixed) =
        some (.mul [.pow (.sym "x") (.add [.sym "y", .num 1]), exExp]) :=
  mixed_ok rfl rfl n k _ ρ hx

end Purrs.SimplifyOut
