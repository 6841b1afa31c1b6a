import Verif.Model.Decomp
import Verif.Props.Expr

/-!
# C13, C14: decompositions lose nothing
-/

set_option linter.unusedSectionVars false

namespace Purrs

open Function (update)

variable {K : Type} [Field K] [CharZero K] (I : Interp K)

/-! ## C13 -/

/-- Specification: the value of a decomposition, `Σ αᵢ^x (pᵢ + qᵢ)`. -/
def epValue (I : Interp K) (ρ : String → K) (x : String) (st : List (Expr × Expr × Expr)) : K :=
  (st.map fun t => I.pw (eval I ρ t.1) (ρ x) * (eval I ρ t.2.1 + eval I ρ t.2.2)).sum

theorem bumpLast_sum {α : Type} (p : α → Bool) (f : α → α) (g : α → K) (δ : K)
    (hg : ∀ a, p a = true → g (f a) = g a + δ) (l l' : List α) (h : bumpLast p f l = some l') :
    (l'.map g).sum = (l.map g).sum + δ := by
  induction l generalizing l' with
  | nil => simp [bumpLast] at h
  | cons a l ih =>
    simp only [bumpLast] at h
    split at h
    · rename_i l'' hl
      cases h
      simp [ih _ hl]; ring
    · split at h
      · rename_i hp; cases h; simp [hg a hp]; ring
      · cases h

theorem bumpLast_none {α : Type} (p : α → Bool) (f : α → α) (l : List α) :
    bumpLast p f l = none ↔ ∀ a ∈ l, p a = false := by
  induction l with
  | nil => simp [bumpLast]
  | cons a l ih =>
    simp only [bumpLast]
    cases hl : bumpLast p f l with
    | some l' =>
      simp only [reduceCtorEq, false_iff, not_forall]
      rw [hl] at ih
      simp only [reduceCtorEq, false_iff, not_forall] at ih
      obtain ⟨b, hb, h⟩ := ih
      exact ⟨b, by simp [hb], h⟩
    | none =>
      rw [hl] at ih
      have := ih.mp rfl
      by_cases hp : p a = true
      · simp [hp]
      · simp [hp]; simpa using this

theorem bumpLast_map {α β : Type} (p : α → Bool) (f : α → α) (k : α → β) (hk : ∀ a, k (f a) = k a)
    (l l' : List α) (h : bumpLast p f l = some l') : l'.map k = l.map k := by
  induction l generalizing l' with
  | nil => simp [bumpLast] at h
  | cons a l ih =>
    simp only [bumpLast] at h
    split at h
    · rename_i l'' hl; cases h; simp [ih _ hl]
    · split at h
      · cases h; simp [hk]
      · cases h

theorem bumpLast_forall {α : Type} (p : α → Bool) (f : α → α) (Q : α → Prop)
    (hf : ∀ a, Q a → Q (f a)) (l l' : List α) (h : bumpLast p f l = some l') (hl : ∀ a ∈ l, Q a) :
    ∀ a ∈ l', Q a := by
  induction l generalizing l' with
  | nil => simp [bumpLast] at h
  | cons a l ih =>
    simp only [bumpLast] at h
    split at h
    · rename_i l'' hl'; cases h
      intro b hb
      rcases List.mem_cons.mp hb with rfl | hb
      · exact hl _ (by simp)
      · exact ih _ hl' (fun c hc => hl c (by simp [hc])) b hb
    · split at h
      · cases h
        intro b hb
        rcases List.mem_cons.mp hb with rfl | hb
        · exact hf _ (hl _ (by simp))
        · exact hl _ (by simp [hb])
      · cases h

theorem epFactor_value (ρ : String → K) (x : String) (base e : Expr) (st) :
    epValue I ρ x (epFactor x base e st)
      = epValue I ρ x st + I.pw (eval I ρ base) (ρ x) * eval I ρ e := by
  unfold epFactor epValue
  have hv := C15_isolate_value I x e ρ
  simp only
  split
  · rename_i st' h
    apply bumpLast_sum _ _ _ _ _ _ _ h
    intro t ht
    simp only [decide_eq_true_eq] at ht
    simp only [eval_addE]
    rw [← hv, ht]; ring
  · simp only [List.map_append, List.map_cons, List.map_nil, List.sum_append, List.sum_cons,
      List.sum_nil, eval_addE, eval]
    rw [← hv]; push_cast; ring

/-- The invariant: bases pairwise distinct and free of `x`, polynomial parts polynomial. -/
structure EpGood (I : Interp K) (x : String) (st : List (Expr × Expr × Expr)) : Prop where
  nodup : (st.map Prod.fst).Nodup
  scalar : ∀ t ∈ st, isScalarRep x t.1 = true
  poly : ∀ t ∈ st, ∀ ρ : String → K, ∃ P : Polynomial K, ∀ v,
    eval I (update ρ x v) t.2.1 = Polynomial.aeval v P

theorem epFactor_good (x : String) (base e : Expr) (st) (h : EpGood I x st)
    (hb : isScalarRep x base = true) : EpGood I x (epFactor x base e st) := by
  have hadd : ∀ p : Expr, (∀ ρ : String → K, ∃ P : Polynomial K, ∀ v,
      eval I (update ρ x v) p = Polynomial.aeval v P) → ∀ ρ : String → K, ∃ P : Polynomial K, ∀ v,
      eval I (update ρ x v) (addE p (isolatePolynomialPart x e).1) = Polynomial.aeval v P := by
    intro p hp ρ
    obtain ⟨P, hP⟩ := hp ρ
    obtain ⟨Q, hQ⟩ := C15_isolate_polynomial I x e ρ
    exact ⟨P + Q, fun v => by rw [eval_addE, hP, hQ]; simp⟩
  unfold epFactor
  simp only
  split
  · rename_i st' hst
    refine ⟨?_, ?_, ?_⟩
    · rw [bumpLast_map _ _ Prod.fst (by intro _; rfl) _ _ hst]; exact h.nodup
    · exact bumpLast_forall (Q := fun t : Expr × Expr × Expr => isScalarRep x t.1 = true)
        (h := hst) (hf := by intro a ha; exact ha) (hl := h.scalar)
    · exact bumpLast_forall _ _ (fun t : Expr × Expr × Expr => ∀ ρ : String → K, ∃ P : Polynomial K,
        ∀ v, eval I (update ρ x v) t.2.1 = Polynomial.aeval v P) (fun a ha => hadd _ ha) _ _ hst h.poly
  · rename_i hst
    rw [bumpLast_none] at hst
    refine ⟨?_, ?_, ?_⟩
    · simp only [List.map_append, List.map_cons, List.map_nil]
      rw [List.nodup_append]
      refine ⟨h.nodup, by simp, ?_⟩
      intro a ha b hb'
      simp at hb'
      obtain ⟨t, ht, rfl⟩ := List.mem_map.mp ha
      have := hst t ht
      simp at this
      rw [hb']; exact Ne.symm this
    · intro t ht
      rcases List.mem_append.mp ht with ht | ht
      · exact h.scalar t ht
      · simp at ht; rw [ht]; exact hb
    · intro t ht
      rcases List.mem_append.mp ht with ht | ht
      · exact h.poly t ht
      · simp at ht; rw [ht]; exact hadd _ fun ρ => ⟨0, by simp [eval]⟩

theorem epBase_spec {x : String} {e b : Expr} (h : epBase x e = some b) :
    e = .pow b (.sym x) ∧ isScalarRep x b = true := by
  cases e with
  | pow c d =>
    simp only [epBase] at h
    split at h
    · rename_i hc; cases h; exact ⟨by rw [hc.1], hc.2⟩
    · cases h
  | _ => simp [epBase] at h

theorem epSplit_spec {x : String} (ρ : String → K) {l : List Expr} {b : Expr} {rest : List Expr}
    (h : epSplit x l = some (b, rest)) :
    isScalarRep x b = true ∧
    (l.map (eval I ρ)).prod = I.pw (eval I ρ b) (ρ x) * (rest.map (eval I ρ)).prod := by
  induction l generalizing rest with
  | nil => simp [epSplit] at h
  | cons a l ih =>
    simp only [epSplit] at h
    split at h
    · rename_i b' r' hl
      cases h
      obtain ⟨h1, h2⟩ := ih hl
      refine ⟨h1, ?_⟩
      simp only [List.map_cons, List.prod_cons, h2]; ring
    · rw [Option.map_eq_some_iff] at h
      obtain ⟨b', hb, h⟩ := h
      cases h
      obtain ⟨rfl, h2⟩ := epBase_spec hb
      exact ⟨h2, by simp [eval]⟩

theorem epSummand_spec (x : String) (e : Expr) (st) (hst : EpGood I x st) :
    EpGood I x (epSummand x e st) ∧ ∀ ρ : String → K,
      epValue I ρ x (epSummand x e st) = epValue I ρ x st + eval I ρ e := by
  have one : isScalarRep x (.num 1) = true := by simp [isScalarRep]
  have h1 : EpGood I x (epFactor x (.num 1) e st) ∧ ∀ ρ : String → K,
      epValue I ρ x (epFactor x (.num 1) e st) = epValue I ρ x st + eval I ρ e := by
    refine ⟨epFactor_good I x _ _ _ hst one, fun ρ => ?_⟩
    rw [epFactor_value]; simp [eval, I.one_pw]
  cases e with
  | mul l =>
    simp only [epSummand]
    split
    · exact h1
    · split
      · rename_i b rest hs
        obtain ⟨hb, _⟩ := epSplit_spec I (fun _ => (0 : K)) hs
        refine ⟨epFactor_good I x _ _ _ hst hb, fun ρ => ?_⟩
        rw [epFactor_value, eval_foldr_mulE]
        obtain ⟨_, h2⟩ := epSplit_spec I ρ hs
        simp only [eval, Rat.cast_one, one_mul]
        rw [show (fun a => eval I ρ a) = eval I ρ from rfl, h2]
      · exact h1
  | _ =>
    simp only [epSummand]
    split
    · rename_i b hb
      obtain ⟨he, hs⟩ := epBase_spec hb
      refine ⟨epFactor_good I x _ _ _ hst hs, fun ρ => ?_⟩
      rw [epFactor_value, he]; simp [eval]
    · exact h1

/-- **C13.**  For every expression, the decomposition has the value of the expression, under
every valuation; its bases are pairwise distinct and free of `x`; and each `pᵢ` is a
polynomial function of `x`. -/
theorem C13_decomposition (x : String) (e : Expr) :
    EpGood I x (expPolyDecomposition x e) ∧ ∀ ρ : String → K,
      epValue I ρ x (expPolyDecomposition x e) = eval I ρ e := by
  have nil : EpGood I x [] := ⟨by simp, by simp, by simp⟩
  have h1 : EpGood I x (epSummand x e []) ∧ ∀ ρ : String → K,
      epValue I ρ x (epSummand x e []) = eval I ρ e := by
    obtain ⟨a, b⟩ := epSummand_spec I x e [] nil
    exact ⟨a, fun ρ => by rw [b]; simp [epValue]⟩
  cases e with
  | add l =>
    simp only [expPolyDecomposition]
    split
    · have : EpGood I x (l.foldr (fun a st => epSummand x a st) []) ∧ ∀ ρ : String → K,
          epValue I ρ x (l.foldr (fun a st => epSummand x a st) []) = (l.map (eval I ρ)).sum := by
        clear h1
        induction l with
        | nil => exact ⟨nil, fun ρ => by simp [epValue]⟩
        | cons a l ih =>
          by_cases hl : 1 < l.length
          · obtain ⟨h1, h2⟩ := ih hl
            obtain ⟨h3, h4⟩ := epSummand_spec I x a _ h1
            exact ⟨h3, fun ρ => by rw [List.foldr_cons, h4, h2]; simp; ring⟩
          · match l, hl with
            | [], _ =>
              obtain ⟨h3, h4⟩ := epSummand_spec I x a _ nil
              exact ⟨h3, fun ρ => by simp only [List.foldr_cons, List.foldr_nil]; rw [h4]; simp [epValue]⟩
            | [b], _ =>
              obtain ⟨h1, h2⟩ := epSummand_spec I x b _ nil
              obtain ⟨h3, h4⟩ := epSummand_spec I x a _ h1
              refine ⟨h3, fun ρ => ?_⟩
              simp only [List.foldr_cons, List.foldr_nil]
              rw [h4, h2]; simp [epValue]; ring
            | _ :: _ :: _, hl => simp at hl
      exact ⟨this.1, fun ρ => by rw [this.2, eval]⟩
    · exact h1
  | _ => exact h1

/-- A concrete decomposition: `3·2^n·n + 2^n + n`. -/
example : expPolyDecomposition "n" (.add [.mul [.num 3, .pow (.num 2) (.sym "n"), .sym "n"],
    .pow (.num 2) (.sym "n"), .sym "n"])
    = [(.num 1, .sym "n", .num 0),
       (.num 2, .add [.num 1, .mul [.sym "n", .num 3]], .num 0)] := by
  simp [expPolyDecomposition, epSummand, epSplit, epBase, epFactor, isScalarRep,
    isolatePolynomialPart, isPolynomial, addE, mulE, bumpLast]

/-! ## C14 -/

/-- Specification: the value of a factorial decomposition, `Σ hⱼ (aⱼ x)!`. -/
def factValue (I : Interp K) (ρ : String → K) (x : String) (st : List (ℚ × Expr)) : K :=
  (st.map fun t => eval I ρ t.2 * I.fn .factorial [(t.1 : K) * ρ x]).sum

theorem factAdd_value (ρ : String → K) (x : String) (v : ℚ) (c : Expr) (st) :
    factValue I ρ x (factAdd v c st)
      = factValue I ρ x st + eval I ρ c * I.fn .factorial [(v : K) * ρ x] := by
  unfold factAdd factValue
  split
  · rename_i st' h
    apply bumpLast_sum _ _ _ _ _ _ _ h
    intro t ht
    simp only [decide_eq_true_eq] at ht
    simp only [eval_addE, ht]; ring
  · simp only [List.map_append, List.map_cons, List.map_nil, List.sum_append, List.sum_cons,
      List.sum_nil, eval_addE, eval]
    push_cast; ring

theorem factSplit_value (ρ : String → K) (l : List Expr) (r : Expr × Expr)
    (h : factSplit l = some r) :
    (r.1 = .num 0 → (∀ y ∈ l, y ≠ .fn .factorial [.num 0]) →
      (l.map (eval I ρ)).prod = eval I ρ r.2) ∧
    (r.1 ≠ .num 0 → (∀ y ∈ l, y ≠ .fn .factorial [.num 0]) →
      (l.map (eval I ρ)).prod = eval I ρ r.2 * I.fn .factorial [eval I ρ r.1]) := by
  induction l generalizing r with
  | nil => simp [factSplit] at h; subst h; simp [eval]
  | cons a l ih =>
    simp only [factSplit] at h
    cases hl : factSplit l with
    | none => simp [hl] at h
    | some s =>
      obtain ⟨h1, h2⟩ := ih s hl
      simp only [hl, Option.bind_some] at h
      split at h
      · rename_i y
        split at h
        · rename_i hs
          cases h
          refine ⟨?_, ?_⟩
          · intro hy hh
            simp only at hy
            exact absurd (by rw [hy]) (hh (.fn .factorial [y]) (by simp))
          · intro hy hh
            have := h1 hs fun z hz => hh z (by simp [hz])
            simp only [List.map_cons, List.prod_cons, this, eval]
            simp; ring
        · cases h
      · cases h
        refine ⟨fun hy hh => ?_, fun hy hh => ?_⟩
        · have := h1 hy fun z hz => hh z (by simp [hz])
          simp only [List.map_cons, List.prod_cons, this, eval_mulE]; ring
        · have := h2 hy fun z hz => hh z (by simp [hz])
          simp only [List.map_cons, List.prod_cons, this, eval_mulE]; ring

theorem argNotX_value (ρ : String → K) (x : String) (l : List Expr) (q : Expr)
    (hq : q = l.foldr (fun a acc => if a = .sym x then acc else mulE acc a) (.num 1))
    (hone : (l.filter fun a => decide (a = .sym x)).length = 1) :
    (l.map (eval I ρ)).prod = eval I ρ q * ρ x := by
  have key : ∀ m : List Expr, (m.map (eval I ρ)).prod
      = eval I ρ (m.foldr (fun a acc => if a = .sym x then acc else mulE acc a) (.num 1))
        * ρ x ^ (m.filter fun a => decide (a = .sym x)).length := by
    intro m
    induction m with
    | nil => simp [eval]
    | cons a m ih =>
      by_cases ha : a = .sym x
      · subst ha
        simp only [List.map_cons, List.prod_cons, ih, List.foldr_cons, if_true, List.filter_cons,
          decide_true, List.length_cons, eval]
        ring
      · simp only [List.map_cons, List.prod_cons, ih, List.foldr_cons, ha, if_false,
          List.filter_cons, decide_false, Bool.false_eq_true, eval_mulE]
        ring
  rw [key l, hone, hq]; simp

/-- What a summand must look like for `factorial_decomposition` to be right, given what has
been collected so far: its factorial, if it has one, is `x!`, or `(v x)!` with a number `v`
that has not been seen (a product in which `x` occurs once).  `c` is what multiplies the
factorial. -/
def ArgOk (x : String) (y : Expr) (st : List (ℚ × Expr)) : Prop :=
  y = .sym x ∨ ∃ l v, y = .mul l ∧ l.length ≠ 1 ∧
    (l.filter fun a => decide (a = .sym x)).length = 1 ∧
    l.foldr (fun a acc => if a = .sym x then acc else mulE acc a) (.num 1) = .num v ∧
    ∀ t ∈ st, t.1 ≠ v

theorem factArgument_value (ρ : String → K) (x : String) (y c : Expr) (st)
    (h : ArgOk x y st) :
    factValue I ρ x (factArgument x y c st)
      = factValue I ρ x st + eval I ρ c * I.fn .factorial [eval I ρ y] := by
  rcases h with rfl | ⟨l, v, rfl, h1, h2, h3, h4⟩
  · simp only [factArgument, if_true]
    rw [factAdd_value]; simp [eval]
  · have hx : (l.any fun a => decide (a = .sym x)) = true := by
      rw [List.any_eq_true]
      have hp : 0 < (l.filter fun a => decide (a = Expr.sym x)).length := by omega
      obtain ⟨a, ha⟩ := List.exists_mem_of_length_pos hp
      rw [List.mem_filter] at ha
      exact ⟨a, ha.1, ha.2⟩
    have hst : (st.any fun t => decide (t.1 = v)) = false := by
      rw [List.any_eq_false]; intro t ht; simp [h4 t ht]
    simp only [factArgument, h1, if_false, hx, h3, hst, Bool.false_eq_true]
    have := argNotX_value I ρ x l (.num v) h3.symm h2
    simp only [factValue, List.map_append, List.map_cons, List.map_nil, List.sum_append,
      List.sum_cons, List.sum_nil, eval_addE, eval, Rat.cast_zero, zero_add, add_zero]
    rw [show (fun a => eval I ρ a) = eval I ρ from rfl, this]
    simp [eval]

/-- What `factorial_decomposition` can digest. -/
def SummandOk (x : String) (e : Expr) (st : List (ℚ × Expr)) : Prop :=
  match e with
  | .mul l => (∀ y ∈ l, y ≠ .fn .factorial [.num 0]) ∧
      (l.length = 1 ∨ ∀ r, factSplit l = some r → r.1 ≠ .num 0 → ArgOk x r.1 st)
  | .fn .factorial [.add _] => True
  | .fn .factorial [y] => ArgOk x y st
  | _ => True

theorem factSummand_value (h0 : I.fn .factorial [0] = 1) (ρ : String → K) (x : String) (e : Expr)
    (st st') (hok : SummandOk x e st) (h : factSummand x e st = some st') :
    factValue I ρ x st' = factValue I ρ x st + eval I ρ e := by
  have zero : ∀ c, factValue I ρ x (factAdd 0 c st) = factValue I ρ x st + eval I ρ c := by
    intro c; rw [factAdd_value]; simp [h0]
  have gen : ∀ s', some (factAdd 0 e st) = some s' →
      factValue I ρ x s' = factValue I ρ x st + eval I ρ e := by
    intro s' hs; cases hs; exact zero e
  unfold factSummand at h
  split at h
  · rename_i l
    split at h
    · exact gen _ h
    · rename_i hl
      rw [Option.map_eq_some_iff] at h
      obtain ⟨r, hr, h⟩ := h
      obtain ⟨hh, hok⟩ := hok
      have hok := hok.resolve_left hl r hr
      obtain ⟨v1, v2⟩ := factSplit_value I ρ l r hr
      by_cases hz : r.1 = .num 0
      · simp only [hz, ne_eq, not_true_eq_false, if_false] at h
        subst h
        rw [zero, eval, show (fun a => eval I ρ a) = eval I ρ from rfl, v1 hz hh]
      · simp only [hz, ne_eq, not_false_eq_true, if_true] at h
        subst h
        rw [factArgument_value I ρ x _ _ _ (hok hz), eval,
          show (fun a => eval I ρ a) = eval I ρ from rfl, v2 hz hh]
  · rename_i y
    split at h
    · exact gen _ h
    · rename_i hna
      cases h
      have : ArgOk x y st := by
        cases y with
        | add l => exact absurd rfl (hna l)
        | _ => exact hok
      rw [factArgument_value I ρ x _ _ _ this]
      simp [eval]
  · exact gen _ h

/-- Every summand can be digested when its turn comes (last to first). -/
def AllOk (x : String) : List Expr → Prop
  | [] => True
  | a :: l => AllOk x l ∧ ∀ st, (l.foldr (fun a acc => acc.bind fun st => factSummand x a st)
      (some [])) = some st → SummandOk x a st

/-- **C14 (partial).**  If the factorials that occur are `x!` or `(v x)!` with each number
`v` in at most one summand, the decomposition has the value of the expression.
Missing: repeated factorials and factorials of parameters, for which it fails. -/
theorem C14_decomposition_partial (h0 : I.fn .factorial [0] = 1) (ρ : String → K) (x : String)
    (l : List Expr) (hl : 1 < l.length) (hok : AllOk x l) (st)
    (h : factorialDecomposition x (.add l) = some st) :
    factValue I ρ x st = eval I ρ (.add l) := by
  simp only [factorialDecomposition, hl, if_true] at h
  rw [eval]
  clear hl
  induction l generalizing st with
  | nil => simp at h; subst h; simp [factValue]
  | cons a l ih =>
    obtain ⟨h1, h2⟩ := hok
    simp only [List.foldr_cons] at h
    cases hs : l.foldr (fun a acc => acc.bind fun st => factSummand x a st) (some []) with
    | none => simp [hs] at h
    | some s =>
      simp only [hs, Option.bind_some] at h
      rw [factSummand_value I h0 ρ x a s st (h2 s hs) h, ih h1 s hs]
      simp; ring

/-- A concrete case meeting the hypotheses: `n·(2n)! + n! + 3`. -/
example : factorialDecomposition "n" (.add [.mul [.sym "n", .fn .factorial [.mul [.num 2, .sym "n"]]],
    .fn .factorial [.sym "n"], .num 3]) = some [(0, .num 3), (1, .num 1), (2, .sym "n")] := by
  simp [factorialDecomposition, factSummand, factSplit, factArgument, factAdd, bumpLast, addE, mulE]

/-- **C14 fails**: of two summands with the same factorial `(2n)!` only one is recorded, so
`n (2n)! + 2^n (2n)!` becomes `2^n (2n)!`. -/
theorem C14_repeated_refuted :
    factorialDecomposition "n"
      (.add [.mul [.sym "n", .fn .factorial [.mul [.num 2, .sym "n"]]],
             .mul [.pow (.num 2) (.sym "n"), .fn .factorial [.mul [.num 2, .sym "n"]]]])
      = some [(2, .pow (.num 2) (.sym "n"))] := by
  simp [factorialDecomposition, factSummand, factSplit, factArgument, addE, mulE]

/-- **C14 fails** for the factorial of a parameter: `3 a! + n` becomes `3! + n`. -/
theorem C14_parameter_refuted :
    factorialDecomposition "n" (.add [.mul [.num 3, .fn .factorial [.sym "a"]], .sym "n"])
      = some [(0, .sym "n"), (0, .fn .factorial [.num 3])] := by
  simp [factorialDecomposition, factSummand, factSplit, factArgument, factAdd, bumpLast, addE, mulE]

end Purrs
