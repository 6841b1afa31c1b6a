import Verif.Model.OnIC
import Verif.Props.OrderRed
import Verif.Props.EvalRules
import Verif.Props.Recurrence

/-!
# The solution on the initial conditions (C114-C117)
-/

set_option linter.unusedSectionVars false

namespace Purrs.OnIC

open Function (update update_of_ne update_self update_comm)
open OrderRed (withX eval_x eval_noX SolvesAt IsSolution)
open Verify (xAt getIC maxIC)

variable {K : Type} [Field K] [CharZero K] {I : Interp K}

/-! ### Expressions whose only occurrences of `x` are given initial conditions -/

/-- The summation indices of the expression are symbols in `B`; `x` occurs only in the form `x(q)` with
`q` a number in `S`. -/
def Shape (B : String → Prop) (S : ℚ → Prop) : Expr → Prop
  | .add l => ∀ a ∈ l, Shape B S a
  | .mul l => ∀ a ∈ l, Shape B S a
  | .pow b e => Shape B S b ∧ Shape B S e
  | .fn f l => (f = .x → ∃ q, l = [.num q] ∧ S q) ∧ ∀ a ∈ l, Shape B S a
  | .binder _ i lo up body => (∃ t, i = .sym t ∧ B t) ∧ Shape B S lo ∧ Shape B S up ∧ Shape B S body
  | _ => True

theorem shape_addE {B : String → Prop} {S : ℚ → Prop} {a b : Expr} (ha : Shape B S a) (hb : Shape B S b) :
    Shape B S (addE a b) := by
  cases a <;> cases b <;> simp only [addE] <;> (try split) <;> (try split) <;> simp_all [Shape, or_imp]

theorem shape_mulE {B : String → Prop} {S : ℚ → Prop} {a b : Expr} (ha : Shape B S a) (hb : Shape B S b) :
    Shape B S (mulE a b) := by
  cases a <;> cases b <;> simp only [mulE] <;> (try split) <;> (try split) <;> simp_all [Shape, or_imp]

theorem shape_powE {B : String → Prop} {S : ℚ → Prop} {a b : Expr} (ha : Shape B S a) (hb : Shape B S b) :
    Shape B S (powE a b) := by
  cases a <;> cases b <;> simp only [powE] <;> (try split) <;> (try split) <;> (try split) <;> simp_all [Shape, or_imp]

theorem shape_foldr_addE {B : String → Prop} {S : ℚ → Prop} (f : Expr → Expr) :
    ∀ (l : List Expr) (z : Expr), Shape B S z → (∀ a ∈ l, Shape B S (f a)) →
      Shape B S (l.foldr (fun a acc => addE acc (f a)) z)
  | [], _, hz, _ => hz
  | a :: l, z, hz, h => shape_addE (shape_foldr_addE f l z hz fun b hb => h b (by simp [hb])) (h a (by simp))

theorem shape_foldr_mulE {B : String → Prop} {S : ℚ → Prop} (f : Expr → Expr) :
    ∀ (l : List Expr) (z : Expr), Shape B S z → (∀ a ∈ l, Shape B S (f a)) →
      Shape B S (l.foldr (fun a acc => mulE acc (f a)) z)
  | [], _, hz, _ => hz
  | a :: l, z, hz, h => shape_mulE (shape_foldr_mulE f l z hz fun b hb => h b (by simp [hb])) (h a (by simp))

/-- Substitution keeps the shape. -/
theorem shape_substitute {B : String → Prop} {S S' : ℚ → Prop} {s r : Expr} (hr : Shape B S' r) (hs : ∀ q, s ≠ .num q)
    (hB : ∀ t, B t → s ≠ .sym t) (hS : ∀ q, S q → s ≠ .fn .x [.num q] → S' q) {e : Expr} (he : Shape B S e) :
    Shape B S' (substitute s r e) := by
  induction e using Expr.ind with
  | num q => rw [substitute, if_neg (Ne.symm (hs q))]; simp [Shape]
  | const c => rw [substitute]; split <;> simp_all [Shape]
  | sym t => rw [substitute]; split <;> simp_all [Shape]
  | add l ih =>
    rw [substitute]
    split
    · exact hr
    · simp only [Shape] at he
      exact shape_foldr_addE _ l _ (by simp [Shape]) fun a ha => ih a ha (he a ha)
  | mul l ih =>
    rw [substitute]
    split
    · exact hr
    · simp only [Shape] at he
      exact shape_foldr_mulE _ l _ (by simp [Shape]) fun a ha => ih a ha (he a ha)
  | pow b x hb hx =>
    rw [substitute]
    split
    · exact hr
    · simp only [Shape] at he
      exact shape_powE (hb he.1) (hx he.2)
  | fn f l ih =>
    rw [substitute]
    split
    · exact hr
    · rename_i hne
      rw [Shape] at he
      simp only [Shape]
      refine ⟨fun hf => ?_, fun a ha => ?_⟩
      · obtain ⟨q, rfl, hq⟩ := he.1 hf
        refine ⟨q, ?_, hS q hq ?_⟩
        · simp [substitute, Ne.symm (hs q)]
        · rw [hf] at hne; exact Ne.symm hne
      · obtain ⟨b, hb, rfl⟩ := List.mem_map.mp ha
        exact ih b hb (he.2 b hb)
  | binder k i a b c hi ha hb hc =>
    rw [substitute]
    split
    · exact hr
    · simp only [Shape] at he
      obtain ⟨⟨t, rfl, ht⟩, h1, h2, h3⟩ := he
      simp only [Shape]
      refine ⟨⟨t, ?_, ht⟩, ha h1, hb h2, hc h3⟩
      rw [substitute, if_neg (Ne.symm (hB t ht))]

/-- The value of `r` does not depend on the symbols in `B`. -/
def Indep (J : Interp K) (B : String → Prop) (r : Expr) : Prop :=
  ∀ (ρ : String → K) t v, B t → eval J (update ρ t v) r = eval J ρ r

/-- Replacing an expression by one of the same value. -/
theorem subst_same {J : Interp K} {B : String → Prop} {S : ℚ → Prop} {s r : Expr} (hB : ∀ t, B t → s ≠ .sym t)
    {P : (String → K) → Prop} (hP : (∀ q, s = .fn .x [.num q] → S q) → ∀ ρ, P ρ → eval J ρ s = eval J ρ r) (hc : ∀ ρ t v, B t → P ρ → P (update ρ t v))
    {e : Expr} (he : Shape B S e) : ∀ ρ, P ρ → eval J ρ (substitute s r e) = eval J ρ e := by
  induction e using Expr.ind with
  | num q =>
    intro ρ h
    rw [substitute]
    split
    · rename_i h'; rw [h', hP (fun q hq => by rw [hq] at h'; cases h') ρ h]
    · rfl
  | const q =>
    intro ρ h
    rw [substitute]
    split
    · rename_i h'; rw [h', hP (fun q hq => by rw [hq] at h'; cases h') ρ h]
    · rfl
  | sym t =>
    intro ρ h
    rw [substitute]
    split
    · rename_i h'; rw [h', hP (fun q hq => by rw [hq] at h'; cases h') ρ h]
    · rfl
  | add l ih =>
    intro ρ h
    rw [substitute]
    split
    · rename_i h'; rw [h', hP (fun q hq => by rw [hq] at h'; cases h') ρ h]
    · simp only [Shape] at he
      simp only [eval_foldr_addE, eval, Rat.cast_zero, zero_add]
      congr 1
      exact List.map_congr_left fun a ha => ih a ha (he a ha) ρ h
  | mul l ih =>
    intro ρ h
    rw [substitute]
    split
    · rename_i h'; rw [h', hP (fun q hq => by rw [hq] at h'; cases h') ρ h]
    · simp only [Shape] at he
      simp only [eval_foldr_mulE, eval, Rat.cast_one, one_mul]
      congr 1
      exact List.map_congr_left fun a ha => ih a ha (he a ha) ρ h
  | pow b x ihb ihe =>
    intro ρ h
    rw [substitute]
    split
    · rename_i h'; rw [h', hP (fun q hq => by rw [hq] at h'; cases h') ρ h]
    · simp only [Shape] at he
      simp only [eval_powE, eval, ihb he.1 ρ h, ihe he.2 ρ h]
  | fn f l ih =>
    intro ρ h
    rw [substitute]
    split
    · rename_i h'
      rw [h', hP (fun q hq => by
        rw [hq] at h'
        rw [Shape] at he
        cases h'
        obtain ⟨q', h1, h2⟩ := he.1 rfl
        cases h1
        exact h2) ρ h]
    · simp only [Shape] at he
      simp only [eval, List.map_map]
      congr 1
      exact List.map_congr_left fun a ha => ih a ha (he.2 a ha) ρ h
  | binder k i a b c hi ha hbb hc' =>
    intro ρ h
    rw [substitute]
    split
    · rename_i h'; rw [h', hP (fun q hq => by rw [hq] at h'; cases h') ρ h]
    · simp only [Shape] at he
      obtain ⟨⟨t, rfl, ht⟩, h1, h2, h3⟩ := he
      have e1 : substitute s r (.sym t) = .sym t := by rw [substitute, if_neg (Ne.symm (hB t ht))]
      simp only [eval, e1]
      rw [ha h1 ρ h, hbb h2 ρ h]
      congr 1
      funext w
      exact hc' h3 _ (hc ρ t w ht h)

/-- Substituting for a symbol that is not a summation index. -/
theorem subst_sym {J : Interp K} {B : String → Prop} {S : ℚ → Prop} {u : String} {r : Expr} (hu : ¬ B u) (hr : Indep J B r)
    {e : Expr} (he : Shape B S e) (ρ : String → K) :
    eval J ρ (substitute (.sym u) r e) = eval J (update ρ u (eval J ρ r)) e := by
  apply C100_capture_free_partial
  induction e using Expr.ind with
  | num q => simp [CaptureFree]
  | const q => simp [CaptureFree]
  | sym s => simp [CaptureFree]
  | add l ih => simp only [Shape] at he; simp [CaptureFree]; exact fun a ha => ih a ha (he a ha)
  | mul l ih => simp only [Shape] at he; simp [CaptureFree]; exact fun a ha => ih a ha (he a ha)
  | pow b e hb he' => simp only [Shape] at he; simp [CaptureFree]; exact ⟨hb he.1, he' he.2⟩
  | fn f l ih => simp only [Shape] at he; simp [CaptureFree]; exact fun a ha => ih a ha (he.2 a ha)
  | binder k i a b c hi ha hb hc =>
    simp only [Shape] at he
    obtain ⟨⟨t, rfl, ht⟩, h1, h2, h3⟩ := he
    simp only [CaptureFree]
    exact ⟨ha h1, hb h2, hc h3, t, rfl, fun h => hu (h ▸ ht), fun ρ v => hr ρ t v ht⟩

theorem shape_hasX {B : String → Prop} {e : Expr} (h : Shape B (fun _ => False) e) : hasX e = false := by
  induction e using Expr.ind with
  | num q => simp [hasX]
  | const q => simp [hasX]
  | sym s => simp [hasX]
  | add l ih => simp only [Shape] at h; simp [hasX]; exact fun a ha => ih a ha (h a ha)
  | mul l ih => simp only [Shape] at h; simp [hasX]; exact fun a ha => ih a ha (h a ha)
  | pow b e hb he => simp only [Shape] at h; simp [hasX, hb h.1, he h.2]
  | fn f l ih =>
    rw [Shape] at h
    have hf : f ≠ .x := fun hf => by obtain ⟨_, _, hq⟩ := h.1 hf; exact hq
    simp [hasX, hf]
    exact fun a ha => ih a ha (h.2 a ha)
  | binder k i a b c hi ha hb hc =>
    simp only [Shape] at h
    obtain ⟨⟨t, rfl, ht⟩, h1, h2, h3⟩ := h
    simp [hasX, ha h1, hb h2, hc h3]

/-- Only the given values of `x` count. -/
theorem eval_shape {B : String → Prop} {S : ℚ → Prop} {X Y : K → K} {e : Expr} (he : Shape B S e)
    (h : ∀ q : ℚ, S q → X (q : K) = Y (q : K)) : ∀ ρ : String → K, eval (withX I X) ρ e = eval (withX I Y) ρ e := by
  induction e using Expr.ind with
  | num q => intro ρ; simp [eval]
  | const q => intro ρ; simp [eval, withX]
  | sym s => intro ρ; simp [eval]
  | add l ih =>
    intro ρ
    simp only [Shape] at he
    simp only [eval]
    congr 1
    exact List.map_congr_left fun a ha => ih a ha (he a ha) ρ
  | mul l ih =>
    intro ρ
    simp only [Shape] at he
    simp only [eval]
    congr 1
    exact List.map_congr_left fun a ha => ih a ha (he a ha) ρ
  | pow b e hb he' =>
    intro ρ
    simp only [Shape] at he
    simp only [eval]
    rw [hb he.1, he' he.2]; rfl
  | fn f l ih =>
    intro ρ
    rw [Shape] at he
    by_cases hf : f = .x
    · obtain ⟨q, rfl, hq⟩ := he.1 hf
      subst hf
      rw [eval_x, eval_x]
      simpa [eval] using h q hq
    · simp only [eval]
      rw [OrderRed.fn_ne_x I X Y hf]
      congr 1
      exact List.map_congr_left fun a ha => ih a ha (he.2 a ha) ρ
  | binder k i a b c hi ha hb hc =>
    intro ρ
    simp only [Shape] at he
    obtain ⟨⟨t, rfl, ht⟩, h1, h2, h3⟩ := he
    simp only [eval]
    rw [ha h1, hb h2]
    show I.bind _ _ _ _ = I.bind _ _ _ _
    congr 1
    funext w
    exact hc h3 _

/-! ### The specification -/

/-- The right hand side, at all `N ≥ f + k`, depends on `x` only through `x(N-1), …, x(N-k)`. -/
def OrderAtMost (I : Interp K) (n : String) (rhs : Expr) (ρ : String → K) (f k : ℕ) : Prop :=
  ∀ N : ℕ, f + k ≤ N → ∀ X Y : K → K, (∀ M : ℕ, N - k ≤ M → M < N → X M = Y M) →
    eval (withX I X) (update ρ n N) rhs = eval (withX I Y) (update ρ n N) rhs

/-- An answer of the linear solver: no summation index, unknown or `n` is left, and the values of the
unknowns satisfy the equations. -/
structure Answer (I : Interp K) (n : String) (B : String → Prop) (eqs : List (Expr × Expr)) (us : List String)
    (vals : List Expr) : Prop where
  len : vals.length = us.length
  shape : ∀ v ∈ vals, Shape B (fun _ => False) v
  indep : ∀ v ∈ vals, ∀ Y, Indep (withX I Y) (fun t => B t ∨ t = n ∨ t ∈ us) v
  sat : ∀ (Y : K → K) (ρ σ : String → K), (∀ t, t ∉ us → σ t = ρ t) →
    (∀ p ∈ us.zip vals, σ p.1 = eval (withX I Y) ρ p.2) →
    ∀ p ∈ eqs, eval (withX I Y) σ p.1 = eval (withX I Y) σ p.2

/-- What is asked of GiNaC's `lsolve`: for equations without `x` and `n`, what it returns is an answer. -/
def LsolveOk (I : Interp K) (O : Ops) (n : String) (B : String → Prop) : Prop :=
  ∀ eqs us vals, O.lsolve eqs us = some vals →
    (∀ p ∈ eqs, hasX p.1 = false ∧ hasX p.2 = false ∧
      ∀ Y, Indep (withX I Y) (fun t => t = n) p.1 ∧ Indep (withX I Y) (fun t => t = n) p.2) →
    Answer I n B eqs us vals

/-- The value of an initial condition: no `x`, and no `n`, summation index or unknown is free in it. -/
structure Value (I : Interp K) (n : String) (B U : String → Prop) (v : Expr) : Prop where
  shape : Shape B (fun _ => False) v
  indep : ∀ Y, Indep (withX I Y) (fun t => B t ∨ t = n ∨ U t) v

/-! ### The unknowns for the symbolic initial conditions -/

theorem shape_mono {B : String → Prop} {S S' : ℚ → Prop} (h : ∀ q, S q → S' q) {e : Expr} (he : Shape B S e) : Shape B S' e := by
  induction e using Expr.ind with
  | num q => simp [Shape]
  | const q => simp [Shape]
  | sym s => simp [Shape]
  | add l ih => simp only [Shape] at he ⊢; exact fun a ha => ih a ha (he a ha)
  | mul l ih => simp only [Shape] at he ⊢; exact fun a ha => ih a ha (he a ha)
  | pow b e hb he' => simp only [Shape] at he ⊢; exact ⟨hb he.1, he' he.2⟩
  | fn f l ih =>
    rw [Shape] at he ⊢
    refine ⟨fun hf => ?_, fun a ha => ih a ha (he.2 a ha)⟩
    obtain ⟨q, h1, h2⟩ := he.1 hf
    exact ⟨q, h1, h q h2⟩
  | binder k i a b c hi ha hb hc =>
    simp only [Shape] at he ⊢
    exact ⟨he.1, ha he.2.1, hb he.2.2.1, hc he.2.2.2⟩

theorem abstract_val {O : Ops} {B : String → Prop} (hB : ∀ i, ¬ B (O.fresh i)) (X : K → K) (f : ℕ) :
    ∀ (k : ℕ) {sol : Expr} {S : ℚ → Prop}, Shape B S sol →
      Shape B (fun q => S q ∧ ∀ i < k, q ≠ ((f + i : ℕ) : ℚ)) (abstractIC O f k sol) ∧
      ∀ σ : String → K, (∀ i < k, σ (O.fresh i) = X ((f + i : ℕ) : K)) →
        eval (withX I X) σ (abstractIC O f k sol) = eval (withX I X) σ sol := by
  intro k
  induction k with
  | zero => intro sol S h; exact ⟨shape_mono (fun q hq => ⟨hq, by simp⟩) h, fun σ _ => rfl⟩
  | succ k ih =>
    intro sol S h
    obtain ⟨h1, h2⟩ := ih h
    have e : abstractIC O f (k + 1) sol = substitute (xAt (f + k)) (.sym (O.fresh k)) (abstractIC O f k sol) := by
      rw [abstractIC, List.range_succ, List.foldl_append]; rfl
    rw [e]
    constructor
    · refine shape_substitute (by simp [Shape]) (by simp [xAt]) (by simp [xAt]) ?_ h1
      intro q hq hne
      refine ⟨hq.1, fun i hi => ?_⟩
      rcases Nat.lt_succ_iff_lt_or_eq.mp hi with h | rfl
      · exact hq.2 i h
      · rintro rfl
        exact hne (by simp [xAt])
    · intro σ hσ
      rw [subst_same (P := fun σ => ∀ i < k + 1, σ (O.fresh i) = X ((f + i : ℕ) : K)) (by simp [xAt]) ?_ ?_ h1 σ hσ]
      · exact h2 σ fun i hi => hσ i (by omega)
      · intro _ ρ hρ
        rw [xAt, eval_x]
        simp only [eval]
        rw [hρ k (by omega)]
        simp
      · intro ρ t v ht hρ i hi
        rw [update_of_ne (fun h : O.fresh i = t => hB i (h ▸ ht))]
        exact hρ i hi

theorem backSub_val {O : Ops} {J : Interp K} {B : String → Prop} {vals : List Expr}
    (hB : ∀ i, ¬ B (O.fresh i)) (hv : ∀ v ∈ vals, Shape B (fun _ => False) v)
    {U : String → Prop} (hU : ∀ i < vals.length, U (O.fresh i)) (hi : ∀ v ∈ vals, Indep J (fun t => B t ∨ U t) v) :
    ∀ (l : List ℕ), (∀ i ∈ l, i < vals.length) → ∀ {e : Expr}, Shape B (fun _ => False) e → 
      Shape B (fun _ => False) (l.foldr (fun i e => substitute (.sym (O.fresh i)) (vals.getD i (.num 0)) e) e) ∧
      ∀ ρ : String → K, eval J ρ (l.foldr (fun i e => substitute (.sym (O.fresh i)) (vals.getD i (.num 0)) e) e)
        = eval J (l.foldl (fun σ i => update σ (O.fresh i) (eval J ρ (vals.getD i (.num 0)))) ρ) e := by
  intro l
  have key : ∀ i < vals.length, vals.getD i (.num 0) ∈ vals := by
    intro i hi
    simp [List.getD_eq_getElem?_getD, hi]
  induction l with
  | nil => intro _ e he; exact ⟨he, fun ρ => rfl⟩
  | cons i l ih =>
    intro hl e he
    obtain ⟨h1, h2⟩ := ih (fun j hj => hl j (by simp [hj])) he
    have hm := key i (hl i (by simp))
    constructor
    · exact shape_substitute (hv _ hm) (by simp) (by intro t ht h; cases h; exact hB i ht) (fun q hq _ => hq) h1
    · intro ρ
      rw [List.foldr_cons, subst_sym (hB i) (fun ρ t v ht => hi _ hm ρ t v (Or.inl ht)) h1, h2, List.foldl_cons]
      congr 1
      refine List.foldl_ext _ _ _ fun σ j hj => ?_
      rw [hi _ (key j (hl j (by simp [hj]))) ρ _ _ (Or.inr (hU i (hl i (by simp))))]

theorem foldl_update {O : Ops} (hf : ∀ i j, O.fresh i = O.fresh j → i = j) (w : ℕ → K) :
    ∀ (k : ℕ) (ρ : String → K),
      (∀ t, (∀ i < k, t ≠ O.fresh i) → (List.range k).foldl (fun σ i => update σ (O.fresh i) (w i)) ρ t = ρ t) ∧
      ∀ i < k, (List.range k).foldl (fun σ i => update σ (O.fresh i) (w i)) ρ (O.fresh i) = w i := by
  intro k ρ
  induction k with
  | zero => simp
  | succ k ih =>
    rw [List.range_succ, List.foldl_append]
    simp only [List.foldl_cons, List.foldl_nil]
    constructor
    · intro t ht
      rw [update_of_ne (ht k (by omega))]
      exact ih.1 t fun i hi => ht i (by omega)
    · intro i hi
      rcases Nat.lt_succ_iff_lt_or_eq.mp hi with h | rfl
      · rw [update_of_ne (fun h' => by have := hf _ _ h'; omega)]
        exact ih.2 i h
      · exact update_self ..

/-- Every choice of the first `k` values extends to a sequence satisfying the recurrence. -/
theorem forward_exists {n : String} {rhs : Expr} {ρ : String → K} {f k : ℕ} (h : OrderAtMost I n rhs ρ f k) (w : ℕ → K) :
    ∃ X : K → K, SolvesAt I n rhs ρ X (f + k) ∧ ∀ i < k, X ((f + i : ℕ) : K) = w i := by
  classical
  let ext (s : ℕ → K) : K → K := fun v => if h : ∃ N : ℕ, v = N then s h.choose else 0
  have hext : ∀ (s : ℕ → K) (N : ℕ), ext s N = s N := by
    intro s N
    have hN : ∃ M : ℕ, (N : K) = M := ⟨N, rfl⟩
    have : hN.choose = N := by
      have := hN.choose_spec
      exact_mod_cast this.symm
    simp only [ext]
    rw [dif_pos hN, this]
  let s : ℕ → K := fun N => Nat.strongRec (motive := fun _ => K)
    (fun N rec => if f + k ≤ N then eval (withX I (ext fun M => if h : M < N then rec M h else 0)) (update ρ n N) rhs else w (N - f)) N
  have hs : ∀ N, s N = if f + k ≤ N then eval (withX I (ext fun M => if M < N then s M else 0)) (update ρ n N) rhs else w (N - f) := by
    intro N
    simp only [s]
    rw [Nat.strongRec]
    simp
  refine ⟨ext s, ?_, ?_⟩
  · intro N hN
    rw [hext, hs, if_pos hN]
    apply h N hN
    intro M _ hM
    have e2 := hext (fun M => if M < N then s M else 0) M
    simp only [if_pos hM] at e2
    exact e2.trans (hext s M).symm
  · intro i hi
    rw [hext, hs, if_neg (by omega)]
    simp

/-- Sequences that agree on `k` consecutive indices agree from there on. -/
theorem forward_unique {n : String} {rhs : Expr} {ρ : String → K} {f k j : ℕ} (h : OrderAtMost I n rhs ρ f k) (hj : f ≤ j) {X Y : K → K}
    (hX : SolvesAt I n rhs ρ X (j + k)) (hY : SolvesAt I n rhs ρ Y (j + k)) (he : ∀ i < k, X ((j + i : ℕ) : K) = Y ((j + i : ℕ) : K)) :
    ∀ N : ℕ, j ≤ N → X N = Y N := by
  intro N
  induction N using Nat.strongRec with
  | _ N ih =>
    intro hN
    by_cases h1 : j + k ≤ N
    · rw [hX N h1, hY N h1]
      apply h N (by omega)
      intro M h2 h3
      exact ih M h3 (by omega)
    · have := he (N - j) (by omega)
      rwa [show j + (N - j) = N by omega] at this

/-! ### The values of the last initial conditions determine the solution -/

theorem lastICs_append {k : ℕ} {pre suf : ICMap} (h : suf.length = k) : lastICs k (pre ++ suf) = suf := by
  rw [lastICs, List.reverse_append, List.take_append_of_le_length (by simp [h]), List.take_of_length_le (by simp [h])]
  simp

/-- The unknowns are new: pairwise different, neither `n` nor a summation index, and not in the solution. -/
structure Fresh (I : Interp K) (O : Ops) (n : String) (B : String → Prop) (sol : Expr) : Prop where
  inj : ∀ i j, O.fresh i = O.fresh j → i = j
  ne_n : ∀ i, O.fresh i ≠ n
  notB : ∀ i, ¬ B (O.fresh i)
  sol : ∀ i, isScalarRep (O.fresh i) sol = true

theorem indep_agree {J : Interp K} {e : Expr} {k : ℕ} {u : ℕ → String} (h : ∀ i, isScalarRep (u i) e = true) :
    ∀ {ρ σ : String → K}, (∀ t, (∀ i < k, t ≠ u i) → σ t = ρ t) → eval J σ e = eval J ρ e := by
  induction k with
  | zero =>
    intro ρ σ hσ
    have : σ = ρ := funext fun t => hσ t (by simp)
    rw [this]
  | succ k ih =>
    intro ρ σ hσ
    rw [← C20_scalar_sound J (u k) e (h k) σ (ρ (u k))]
    apply ih
    intro t ht
    by_cases hk : t = u k
    · rw [hk, update_self]
    · rw [update_of_ne hk]
      exact hσ t fun i hi => by
        rcases Nat.lt_succ_iff_lt_or_eq.mp hi with h | rfl
        · exact ht i h
        · exact hk

theorem bySystem_val {O : Ops} {n : String} {B : String → Prop} (hnB : ¬ B n) {sol : Expr} (hF : Fresh I O n B sol)
    {f k j : ℕ} (hj : f ≤ j) (hsh : Shape B (fun q => ∃ i < k, q = ((f + i : ℕ) : ℚ)) sol) (hL : LsolveOk I O n B)
    {val : Expr → Expr} {pre suf : ICMap} (hkeys : suf.map Prod.fst = (List.range k).map (j + ·))
    (hv : ∀ p ∈ suf, Value I n B (fun t => ∃ i, t = O.fresh i) (val p.2)) {rhs : Expr} {ρ : String → K}
    (hk : OrderAtMost I n rhs ρ f k) (hs : IsSolution I n rhs ρ sol f k)
    (hans : O.lsolve (equations n k (pre ++ suf) val (abstractIC O f k sol)) ((List.range k).map O.fresh) ≠ none)
    {X : K → K} (hX : SolvesAt I n rhs ρ X (j + k)) (hXv : ∀ p ∈ suf, X (p.1 : K) = eval (withX I X) ρ (val p.2))
    {e : Expr} (he : bySystem O n f k (pre ++ suf) val sol = some e) :
    Shape B (fun _ => False) e ∧ ∀ N : ℕ, j ≤ N → ∀ Y, eval (withX I Y) (update ρ n N) e = X N := by
  have hlen : suf.length = k := by have := congrArg List.length hkeys; simpa using this
  have hsh0 : Shape B (fun _ => False) (abstractIC O f k sol) := by
    refine shape_mono ?_ (abstract_val (I := I) hF.notB X f k hsh).1
    rintro q ⟨⟨i, hi, rfl⟩, h⟩
    exact h i hi rfl
  rw [bySystem, if_neg (by simp [hlen])] at he
  dsimp only at he
  obtain ⟨vals, hvals⟩ := Option.ne_none_iff_exists'.mp hans
  rw [hvals] at he
  simp only [Option.some.injEq] at he
  subst he
  have hA : Answer I n B (equations n k (pre ++ suf) val (abstractIC O f k sol)) ((List.range k).map O.fresh) vals := by
    refine hL _ _ _ hvals ?_
    intro p hp
    rw [equations, lastICs_append hlen] at hp
    obtain ⟨q, hq, rfl⟩ := List.mem_map.mp hp
    have hsub : Shape B (fun _ => False) (substitute (.sym n) (.num q.1) (abstractIC O f k sol)) :=
      shape_substitute (by simp [Shape]) (by simp) (by intro t ht h; cases h; exact hnB ht) (fun q hq _ => hq) hsh0
    refine ⟨shape_hasX hsub, shape_hasX (hv q hq).shape, fun Y => ⟨?_, ?_⟩⟩
    · rintro σ t v rfl
      rw [subst_sym hnB (by intro _ _ _ _; simp [eval]) hsh0, subst_sym hnB (by intro _ _ _ _; simp [eval]) hsh0]
      simp [eval]
    · rintro σ t v rfl
      exact (hv q hq).indep Y σ _ v (Or.inr (Or.inl rfl))
  have hlv : vals.length = k := by simpa using hA.len
  have hmem : ∀ i, i < k → O.fresh i ∈ (List.range k).map O.fresh := by
    intro i hi
    exact List.mem_map.mpr ⟨i, by simpa using hi, rfl⟩
  have key : ∀ i < k, vals.getD i (.num 0) ∈ vals := by
    intro i hi
    simp [List.getD_eq_getElem?_getD, hlv, hi]
  have hback : ∀ Y : K → K, Shape B (fun _ => False) (backSub O vals (abstractIC O f k sol)) ∧ ∀ σ : String → K,
      eval (withX I Y) σ (backSub O vals (abstractIC O f k sol)) =
        eval (withX I Y) ((List.range k).foldl (fun τ i => update τ (O.fresh i) (eval (withX I Y) σ (vals.getD i (.num 0)))) σ)
          (abstractIC O f k sol) := by
    intro Y
    rw [backSub, hlv]
    refine backSub_val hF.notB hA.shape (U := fun t => t ∈ (List.range k).map O.fresh) (fun i hi => hmem i (hlv ▸ hi)) ?_ _
      (fun i hi => by rw [hlv]; simpa using hi) hsh0
    intro v hv σ t w ht
    refine hA.indep v hv Y σ t w ?_
    rcases ht with h | h
    · exact Or.inl h
    · exact Or.inr (Or.inr h)
  refine ⟨(hback X).1, ?_⟩
  -- the sequence with the computed values at the first indices
  obtain ⟨Z, hZ, hZv⟩ := forward_exists hk fun i => eval (withX I X) ρ (vals.getD i (.num 0))
  have hval : ∀ (Y : K → K) (N : ℕ) (i : ℕ), i < k → eval (withX I Y) (update ρ n N) (vals.getD i (.num 0)) = Z ((f + i : ℕ) : K) := by
    intro Y N i hi
    rw [hA.indep _ (key i hi) Y _ _ _ (Or.inr (Or.inl rfl)), eval_noX I Y X _ (shape_hasX (hA.shape _ (key i hi))), hZv i hi]
  have hZe : ∀ (Y : K → K) (N : ℕ) (σ : String → K), f ≤ N → (∀ t, (∀ i < k, t ≠ O.fresh i) → σ t = update ρ n (N : K) t) →
      (∀ i < k, σ (O.fresh i) = Z ((f + i : ℕ) : K)) → eval (withX I Y) σ (abstractIC O f k sol) = Z N := by
    intro Y N σ hN h1 h2
    rw [eval_noX I Y Z _ (shape_hasX hsh0), (abstract_val (I := I) hF.notB Z f k hsh).2 σ h2,
      indep_agree (k := k) hF.sol h1, hs Z hZ N hN]
  have hres : ∀ (Y : K → K) (N : ℕ), f ≤ N → eval (withX I Y) (update ρ n N) (backSub O vals (abstractIC O f k sol)) = Z N := by
    intro Y N hN
    rw [(hback Y).2]
    obtain ⟨h1, h2⟩ := foldl_update hF.inj (fun i => eval (withX I Y) (update ρ n (N : K)) (vals.getD i (.num 0))) k (update ρ n (N : K))
    refine hZe Y N _ hN h1 fun i hi => ?_
    rw [h2 i hi]
    exact hval Y N i hi
  -- it has the given values
  have hgiven : ∀ p ∈ suf, Z (p.1 : K) = X (p.1 : K) := by
    intro p hp
    have hpk : ∃ i < k, p.1 = j + i := by
      have : p.1 ∈ suf.map Prod.fst := List.mem_map.mpr ⟨p, hp, rfl⟩
      rw [hkeys] at this
      obtain ⟨i, hi, h⟩ := List.mem_map.mp this
      exact ⟨i, by simpa using hi, h.symm⟩
    obtain ⟨h1, h2⟩ := foldl_update hF.inj (fun i => Z ((f + i : ℕ) : K)) k ρ
    generalize hσ : (List.range k).foldl (fun σ i => update σ (O.fresh i) (Z ((f + i : ℕ) : K))) ρ = σ at h1 h2
    have hsat := hA.sat X ρ σ ?_ ?_ (substitute (.sym n) (.num p.1) (abstractIC O f k sol), val p.2) ?_
    · simp only at hsat
      rw [subst_sym hnB (by intro _ _ _ _; simp [eval]) hsh0] at hsat
      rw [hZe X p.1 (update σ n _) (by obtain ⟨i, _, h⟩ := hpk; omega)] at hsat
      · rw [hsat, hXv p hp]
        have hind : ∀ l : List ℕ, ∀ τ : String → K, eval (withX I X) (l.foldl (fun σ i => update σ (O.fresh i) (Z ((f + i : ℕ) : K))) τ) (val p.2)
            = eval (withX I X) τ (val p.2) := by
          intro l
          induction l with
          | nil => intro τ; rfl
          | cons a l ih => intro τ; rw [List.foldl_cons, ih, (hv p hp).indep X τ _ _ (Or.inr (Or.inr ⟨a, rfl⟩))]
        rw [← hσ, hind]
      · intro t ht
        by_cases h : t = n
        · rw [h, update_self, update_self]; simp [eval]
        · rw [update_of_ne h, update_of_ne h]; exact h1 t ht
      · intro i hi
        rw [update_of_ne (hF.ne_n i)]
        exact h2 i hi
    · intro t ht
      exact h1 t fun i hi h => ht (h ▸ hmem i hi)
    · intro q hq
      obtain ⟨i, hi, h⟩ := List.mem_iff_getElem.mp hq
      simp only [List.length_zip, List.length_map, List.length_range, hlv, min_self] at hi
      simp only [List.getElem_zip, List.getElem_map, List.getElem_range] at h
      rw [← h]
      simp only
      rw [h2 i hi, hZv i hi]
      simp [List.getD_eq_getElem?_getD, hlv, hi]
    · rw [equations, lastICs_append hlen]
      exact List.mem_map.mpr ⟨p, hp, rfl⟩
  intro N hN Y
  rw [hres Y N (by omega)]
  refine forward_unique hk hj (fun M hM => hZ M (by omega)) hX (fun i hi => ?_) N hN
  have : j + i ∈ suf.map Prod.fst := by
    rw [hkeys]; exact List.mem_map.mpr ⟨i, by simpa using hi, rfl⟩
  obtain ⟨p, hp, h⟩ := List.mem_map.mp this
  rw [← h]
  exact hgiven p hp

theorem substAll_val {n : String} {B : String → Prop} {X : K → K} {ρ : String → K} :
    ∀ (m : ICMap) {S : ℚ → Prop} {sol : Expr}, Shape B S sol →
      (∀ p ∈ m, Value I n B (fun _ => False) p.2) → (∀ p ∈ m, S p.1 → X (p.1 : K) = eval (withX I X) ρ p.2) →
      Shape B (fun q => S q ∧ ∀ p ∈ m, q ≠ (p.1 : ℚ)) (substAll m sol) ∧
      ∀ a : K, eval (withX I X) (update ρ n a) (substAll m sol) = eval (withX I X) (update ρ n a) sol
  | [], S, sol, h, _, _ => ⟨shape_mono (fun q hq => ⟨hq, by simp⟩) h, fun _ => rfl⟩
  | p :: m, S, sol, h, hv, hX => by
    have hp := hv p (by simp)
    have h1 : Shape B (fun q => S q ∧ q ≠ (p.1 : ℚ)) (substitute (xAt p.1) p.2 sol) := by
      refine shape_substitute (shape_mono (fun _ h => h.elim) hp.shape) (by simp [xAt]) (by simp [xAt]) (fun q hq hne => ⟨hq, ?_⟩) h
      rintro rfl
      exact hne rfl
    obtain ⟨h2, h3⟩ := substAll_val m h1 (fun q hq => hv q (by simp [hq])) (fun q hq hs => hX q (by simp [hq]) hs.1)
    have e : substAll (p :: m) sol = substAll m (substitute (xAt p.1) p.2 sol) := rfl
    rw [e]
    constructor
    · refine shape_mono ?_ h2
      intro q hq
      refine ⟨hq.1.1, fun r hr => ?_⟩
      rcases List.mem_cons.mp hr with rfl | hr
      · exact hq.1.2
      · exact hq.2 r hr
    · intro a
      rw [h3 a]
      refine subst_same (P := fun σ => eval (withX I X) σ p.2 = eval (withX I X) ρ p.2) (by simp [xAt]) ?_ ?_ h _ ?_
      · intro hS σ hσ
        rw [hσ, ← hX p (by simp) (hS _ rfl), xAt, eval_x]
        simp [eval]
      · intro σ t v ht hσ
        rw [hp.indep X σ t v (Or.inl ht), hσ]
      · rw [hp.indep X ρ n a (Or.inr (Or.inl rfl))]

/-- **C114.**  Let `sol` be the solution of a recurrence of order `k` valid from `f` on.  If the last `k` initial
conditions are given at consecutive indices `j, …, j+k-1` with `f ≤ j`, then the expression computed from `sol` has, at all
`N ≥ j`, the values of the sequence that satisfies the recurrence from `j + k` on and takes the given values; no symbolic
initial condition is left (its value does not depend on the meaning of `x`). -/
theorem C114_linear {O : Ops} {n : String} {B : String → Prop} (hnB : ¬ B n) {sol : Expr} (hF : Fresh I O n B sol)
    {f k j : ℕ} (hk0 : 0 < k) (hj : f ≤ j) (hsh : Shape B (fun q => ∃ i < k, q = ((f + i : ℕ) : ℚ)) sol) (hL : LsolveOk I O n B)
    {pre suf : ICMap} (hkeys : suf.map Prod.fst = (List.range k).map (j + ·)) (hpre : ∀ p ∈ pre, p.1 < j)
    (hv : ∀ p ∈ pre ++ suf, Value I n B (fun t => ∃ i, t = O.fresh i) p.2) {rhs : Expr} {ρ : String → K}
    (hk : OrderAtMost I n rhs ρ f k) (hs : IsSolution I n rhs ρ sol f k)
    (hans : f < j → O.lsolve (equations n k (pre ++ suf) id (abstractIC O f k sol)) ((List.range k).map O.fresh) ≠ none)
    {e : Expr} (he : linear O n f k (pre ++ suf) sol = some e)
    (hsimp : ∀ a, O.simp a = e → ∀ (N : ℕ) Y, eval (withX I Y) (update ρ n N) e = eval (withX I Y) (update ρ n N) a)
    {X : K → K} (hX : SolvesAt I n rhs ρ X (j + k)) (hXv : ∀ p ∈ suf, X (p.1 : K) = eval (withX I X) ρ p.2) :
    ∀ N : ℕ, j ≤ N → ∀ Y, eval (withX I Y) (update ρ n N) e = X N := by
  have hlast : RecState.largestKey (pre ++ suf) = some (j + k - 1) := by
    have h1 : RecState.largestKey (pre ++ suf) = ((pre ++ suf).map Prod.fst).getLast? := by
      rw [RecState.largestKey, List.getLast?_map]
    obtain ⟨k', rfl⟩ := Nat.exists_eq_succ_of_ne_zero hk0.ne'
    rw [h1, List.map_append, hkeys, Nat.succ_eq_add_one, List.range_succ, List.map_append]
    simp
  rw [linear, hlast] at he
  dsimp only at he
  obtain ⟨a, ha, rfl⟩ := Option.map_eq_some_iff.mp he
  intro N hN Y
  rw [hsimp a rfl N Y]
  by_cases hb : f + k ≤ j + k - 1
  · rw [if_pos hb] at ha
    exact (bySystem_val (val := id) hnB hF hj hsh hL hkeys (fun p hp => hv p (by simp [hp])) hk hs (hans (by omega)) hX hXv ha).2 N hN Y
  · rw [if_neg hb] at ha
    have hjf : j = f := by omega
    subst hjf
    simp only [Option.some.injEq] at ha
    subst ha
    have hmem : ∀ i < k, ∃ p ∈ suf, p.1 = j + i := by
      intro i hi
      have : j + i ∈ suf.map Prod.fst := by
        rw [hkeys]; exact List.mem_map.mpr ⟨i, by simpa using hi, rfl⟩
      obtain ⟨p, hp, h⟩ := List.mem_map.mp this
      exact ⟨p, hp, h⟩
    obtain ⟨h1, h2⟩ := substAll_val (I := I) (n := n) (X := X) (ρ := ρ) (pre ++ suf) hsh
      (fun p hp => ⟨(hv p hp).shape, fun Y σ t v ht => (hv p hp).indep Y σ t v (by rcases ht with h | h | h; exacts [Or.inl h, Or.inr (Or.inl h), h.elim])⟩)
      (by
        intro p hp ⟨i, hi, h⟩
        rcases List.mem_append.mp hp with hp | hp
        · have := hpre p hp
          have h' : p.1 = j + i := by exact_mod_cast h
          omega
        · exact hXv p hp)
    rw [eval_noX I Y X _ (shape_hasX (shape_mono ?_ h1)), h2, hs X hX N hN]
    rintro q ⟨⟨i, hi, rfl⟩, h⟩
    obtain ⟨p, hp, hpe⟩ := hmem i hi
    exact h p (by simp [hp]) (by rw [hpe])

/-! ### The linear system has exactly one solution -/

/-- The right hand side is linear: at all `N ≥ f + k` it is the sum of `a i N * x(N - 1 - i)` over `i < k` and of `p N`,
and the coefficient of `x(N - k)` is not zero. -/
structure LinearAt (I : Interp K) (n : String) (rhs : Expr) (ρ : String → K) (f k : ℕ) (a : ℕ → ℕ → K) (p : ℕ → K) : Prop where
  eq : ∀ (X : K → K) (N : ℕ), f + k ≤ N →
    eval (withX I X) (update ρ n N) rhs = (∑ i ∈ Finset.range k, a i N * X ((N - 1 - i : ℕ) : K)) + p N
  ne : ∀ N : ℕ, f + k ≤ N → a (k - 1) N ≠ 0

theorem LinearAt.order {n : String} {rhs : Expr} {ρ : String → K} {f k : ℕ} {a : ℕ → ℕ → K} {p : ℕ → K}
    (h : LinearAt I n rhs ρ f k a p) : OrderAtMost I n rhs ρ f k := by
  intro N hN X Y hXY
  rw [h.eq X N hN, h.eq Y N hN]
  congr 1
  refine Finset.sum_congr rfl fun i hi => ?_
  rw [Finset.mem_range] at hi
  rw [hXY (N - 1 - i) (by omega) (by omega)]

/-- A sequence that satisfies the recurrence from `j + k` on extends backwards. -/
theorem backward_exists {n : String} {rhs : Expr} {ρ : String → K} {f k : ℕ} {a : ℕ → ℕ → K} {p : ℕ → K} (hk : 0 < k)
    (h : LinearAt I n rhs ρ f k a p) : ∀ (d : ℕ) {X : K → K}, SolvesAt I n rhs ρ X (f + d + k) →
      ∃ Z : K → K, SolvesAt I n rhs ρ Z (f + k) ∧ ∀ N : ℕ, f + d ≤ N → Z N = X N := by
  intro d
  induction d with
  | zero => intro X hX; exact ⟨X, hX, fun _ _ => rfl⟩
  | succ d ih =>
    intro X hX
    classical
    obtain ⟨k, rfl⟩ := Nat.exists_eq_succ_of_ne_zero hk.ne'
    have hne := h.ne (f + d + (k + 1)) (by omega)
    simp only [Nat.succ_eq_add_one, Nat.add_sub_cancel] at hne h hX ⊢
    let v : K := (X ((f + d + (k + 1) : ℕ) : K) - (∑ i ∈ Finset.range k, a i (f + d + (k + 1)) * X ((f + d + (k + 1) - 1 - i : ℕ) : K)) -
      p (f + d + (k + 1))) / a k (f + d + (k + 1))
    have hup : ∀ N : ℕ, f + d < N → update X ((f + d : ℕ) : K) v (N : K) = X N := by
      intro N hN
      refine update_of_ne ?_ _ _
      intro h
      have : N = f + d := by exact_mod_cast h
      omega
    have hX' : SolvesAt I n rhs ρ (update X ((f + d : ℕ) : K) v) (f + d + (k + 1)) := by
      intro N hN
      by_cases hN' : N = f + d + (k + 1)
      · subst hN'
        rw [h.eq _ _ (by omega), hup _ (by omega), Finset.sum_range_succ]
        have e1 : f + d + (k + 1) - 1 - k = f + d := by omega
        rw [e1, update_self]
        have e2 : ∑ i ∈ Finset.range k, a i (f + d + (k + 1)) * update X ((f + d : ℕ) : K) v ((f + d + (k + 1) - 1 - i : ℕ) : K)
            = ∑ i ∈ Finset.range k, a i (f + d + (k + 1)) * X ((f + d + (k + 1) - 1 - i : ℕ) : K) := by
          refine Finset.sum_congr rfl fun i hi => ?_
          rw [Finset.mem_range] at hi
          rw [hup _ (by omega)]
        rw [e2]
        simp only [v]
        field_simp
        ring
      · rw [hup N (by omega), hX N (by omega)]
        apply h.order N (by omega)
        intro M h1 h2
        rw [hup M (by omega)]
    obtain ⟨Z, hZ, hZe⟩ := ih hX'
    refine ⟨Z, hZ, fun N hN => ?_⟩
    rw [hZe N (by omega), hup N (by omega)]

/-- Sequences satisfying the recurrence from `f + k` on that agree from `f + d` on agree from `f` on. -/
theorem backward_unique {n : String} {rhs : Expr} {ρ : String → K} {f k : ℕ} {a : ℕ → ℕ → K} {p : ℕ → K} (hk : 0 < k)
    (h : LinearAt I n rhs ρ f k a p) {X Y : K → K} (hX : SolvesAt I n rhs ρ X (f + k)) (hY : SolvesAt I n rhs ρ Y (f + k)) :
    ∀ d : ℕ, (∀ N : ℕ, f + d ≤ N → X N = Y N) → ∀ N : ℕ, f ≤ N → X N = Y N := by
  intro d
  induction d with
  | zero => intro h; simpa using h
  | succ d ih =>
    intro he
    apply ih
    intro N hN
    rcases Nat.eq_or_lt_of_le hN with hN | hN
    · subst hN
      obtain ⟨k, rfl⟩ := Nat.exists_eq_succ_of_ne_zero hk.ne'
      simp only [Nat.succ_eq_add_one] at h hX hY
      have hne := h.ne (f + d + (k + 1)) (by omega)
      have h1 := hX (f + d + (k + 1)) (by omega)
      have h2 := hY (f + d + (k + 1)) (by omega)
      rw [h.eq _ _ (by omega), Finset.sum_range_succ] at h1 h2
      rw [show f + d + (k + 1) - 1 - k = f + d by omega] at h1 h2
      simp only [Nat.add_sub_cancel] at hne
      have e2 : ∑ i ∈ Finset.range k, a i (f + d + (k + 1)) * X ((f + d + (k + 1) - 1 - i : ℕ) : K)
            = ∑ i ∈ Finset.range k, a i (f + d + (k + 1)) * Y ((f + d + (k + 1) - 1 - i : ℕ) : K) := by
        refine Finset.sum_congr rfl fun i hi => ?_
        rw [Finset.mem_range] at hi
        rw [he _ (by omega)]
      rw [e2, he _ (by omega)] at h1
      have h3 : a k (f + d + (k + 1)) * (X ((f + d : ℕ) : K) - Y ((f + d : ℕ) : K)) = 0 := by
        linear_combination h2 - h1
      rcases mul_eq_zero.mp h3 with h4 | h4
      · exact absurd h4 hne
      · exact sub_eq_zero.mp h4
    · exact he N (by omega)

/-- The solution with the unknowns for the symbolic initial conditions. -/
theorem abstract_at {O : Ops} {n : String} {B : String → Prop} {sol : Expr} (hF : Fresh I O n B sol) {f k : ℕ}
    (hsh : Shape B (fun q => ∃ i < k, q = ((f + i : ℕ) : ℚ)) sol) {rhs : Expr} {ρ : String → K} (hs : IsSolution I n rhs ρ sol f k)
    {Z : K → K} (hZ : SolvesAt I n rhs ρ Z (f + k)) (Y : K → K) {N : ℕ} {σ : String → K} (hN : f ≤ N)
    (h1 : ∀ t, (∀ i < k, t ≠ O.fresh i) → σ t = update ρ n (N : K) t) (h2 : ∀ i < k, σ (O.fresh i) = Z ((f + i : ℕ) : K)) :
    eval (withX I Y) σ (abstractIC O f k sol) = Z N := by
  have hsh0 : Shape B (fun _ => False) (abstractIC O f k sol) := by
    refine shape_mono ?_ (abstract_val (I := I) hF.notB Z f k hsh).1
    rintro q ⟨⟨i, hi, rfl⟩, h⟩
    exact h i hi rfl
  rw [eval_noX I Y Z _ (shape_hasX hsh0), (abstract_val (I := I) hF.notB Z f k hsh).2 σ h2,
    indep_agree (k := k) hF.sol h1, hs Z hZ N hN]

/-- **C114**, the system is regular.  If the coefficient of `x(n - k)` has no zero from `f + k` on, the linear system given to
`lsolve` has exactly one solution: one assignment `σ` to the unknowns (and `ρ` to all other symbols) satisfies all equations. -/
theorem C114_system_regular {O : Ops} {n : String} {B : String → Prop} (hnB : ¬ B n) {sol : Expr} (hF : Fresh I O n B sol)
    {f k j : ℕ} (hk0 : 0 < k) (hj : f ≤ j) (hsh : Shape B (fun q => ∃ i < k, q = ((f + i : ℕ) : ℚ)) sol)
    {pre suf : ICMap} (hkeys : suf.map Prod.fst = (List.range k).map (j + ·))
    (hv : ∀ p ∈ suf, Value I n B (fun t => ∃ i, t = O.fresh i) p.2) {rhs : Expr} {ρ : String → K}
    {a : ℕ → ℕ → K} {p : ℕ → K} (hl : LinearAt I n rhs ρ f k a p) (hs : IsSolution I n rhs ρ sol f k) (Y : K → K) :
    ∃! σ : String → K, (∀ t, t ∉ (List.range k).map O.fresh → σ t = ρ t) ∧
      ∀ q ∈ equations n k (pre ++ suf) id (abstractIC O f k sol), eval (withX I Y) σ q.1 = eval (withX I Y) σ q.2 := by
  classical
  have hlen : suf.length = k := by have := congrArg List.length hkeys; simpa using this
  obtain ⟨d, rfl⟩ := Nat.exists_eq_add_of_le hj
  have hsh0 : Shape B (fun _ => False) (abstractIC O f k sol) := by
    refine shape_mono ?_ (abstract_val (I := I) hF.notB Y f k hsh).1
    rintro q ⟨⟨i, hi, rfl⟩, h⟩
    exact h i hi rfl
  have hnot : ∀ t, t ∉ (List.range k).map O.fresh ↔ ∀ i < k, t ≠ O.fresh i := by
    intro t
    simp only [List.mem_map, List.mem_range, not_exists, not_and]
    exact ⟨fun h i hi e => h i hi e.symm, fun h i hi e => h i hi e.symm⟩
  have hval : ∀ σ : String → K, (∀ t, t ∉ (List.range k).map O.fresh → σ t = ρ t) → ∀ q ∈ suf, eval (withX I Y) σ q.2 = eval (withX I Y) ρ q.2 := by
    intro σ hσ q hq
    have hind : ∀ m : ℕ, ∀ σ : String → K, (∀ t, (∀ i < m, t ≠ O.fresh i) → σ t = ρ t) → eval (withX I Y) σ q.2 = eval (withX I Y) ρ q.2 := by
      intro m
      induction m with
      | zero => intro σ h; rw [show σ = ρ from funext fun t => h t (by simp)]
      | succ m ih =>
        intro σ h
        rw [← (hv q hq).indep Y σ (O.fresh m) (ρ (O.fresh m)) (Or.inr (Or.inr ⟨m, rfl⟩))]
        apply ih
        intro t ht
        by_cases hm : t = O.fresh m
        · rw [hm, update_self]
        · rw [update_of_ne hm]
          refine h t fun i hi => ?_
          rcases Nat.lt_succ_iff_lt_or_eq.mp hi with h | rfl
          · exact ht i h
          · exact hm
    exact hind k σ fun t ht => hσ t ((hnot t).mpr ht)
  -- the equations at `σ`, in terms of the sequence with the values of the unknowns
  have heqs : ∀ (σ : String → K) (Z : K → K), (∀ t, t ∉ (List.range k).map O.fresh → σ t = ρ t) → SolvesAt I n rhs ρ Z (f + k) →
      (∀ i < k, σ (O.fresh i) = Z ((f + i : ℕ) : K)) → ∀ q ∈ suf,
      (eval (withX I Y) σ (substitute (.sym n) (.num q.1) (abstractIC O f k sol)) = eval (withX I Y) σ q.2 ↔ Z (q.1 : K) = eval (withX I Y) ρ q.2) := by
    intro σ Z hσ hZ hu q hq
    have hq1 : f ≤ q.1 := by
      have : q.1 ∈ suf.map Prod.fst := List.mem_map.mpr ⟨q, hq, rfl⟩
      rw [hkeys] at this
      obtain ⟨i, hi, h⟩ := List.mem_map.mp this
      omega
    rw [subst_sym hnB (by intro _ _ _ _; simp [eval]) hsh0, hval σ hσ q hq]
    rw [abstract_at hF hsh hs hZ Y (N := q.1) hq1]
    · intro t ht
      by_cases h : t = n
      · rw [h, update_self, update_self]; simp [eval]
      · rw [update_of_ne h, update_of_ne h]; exact hσ t ((hnot t).mpr ht)
    · intro i hi
      rw [update_of_ne (hF.ne_n i)]
      exact hu i hi
  have hmemq : ∀ i < k, ∃ q ∈ suf, q.1 = f + d + i := by
    intro i hi
    have : f + d + i ∈ suf.map Prod.fst := by rw [hkeys]; exact List.mem_map.mpr ⟨i, by simpa using hi, rfl⟩
    obtain ⟨q, hq, h⟩ := List.mem_map.mp this
    exact ⟨q, hq, h⟩
  -- existence
  have hord' : OrderAtMost I n rhs ρ (f + d) k := fun N hN => hl.order N (by omega)
  obtain ⟨X, hX, hXv⟩ := forward_exists hord' fun i => if h : i < k then eval (withX I Y) ρ (suf[i]'(hlen ▸ h)).2 else 0
  obtain ⟨Z, hZ, hZX⟩ := backward_exists hk0 hl d hX
  obtain ⟨h1, h2⟩ := foldl_update hF.inj (fun i => Z ((f + i : ℕ) : K)) k ρ
  generalize (List.range k).foldl (fun σ i => update σ (O.fresh i) (Z ((f + i : ℕ) : K))) ρ = σ at h1 h2
  refine ⟨σ, ⟨fun t ht => h1 t ((hnot t).mp ht), ?_⟩, ?_⟩
  · intro q hq
    rw [equations, lastICs_append hlen] at hq
    obtain ⟨q, hq', rfl⟩ := List.mem_map.mp hq
    refine (heqs σ Z (fun t ht => h1 t ((hnot t).mp ht)) hZ h2 q hq').mpr ?_
    obtain ⟨i, hi, rfl⟩ := List.mem_iff_getElem.mp hq'
    have hik : i < k := hlen ▸ hi
    have hkey : suf[i].1 = f + d + i := by
      have := congrArg (fun l => l[i]?) hkeys
      simpa [hi, hik] using this
    rw [hkey, hZX _ (by omega), hXv i hik, dif_pos hik]
  · rintro τ ⟨ht1, ht2⟩
    obtain ⟨W, hW, hWv⟩ := forward_exists hl.order fun i => τ (O.fresh i)
    have hWZ : ∀ N : ℕ, f ≤ N → W N = Z N := by
      refine backward_unique hk0 hl hW hZ d ?_
      refine forward_unique hord' le_rfl (fun M hM => hW M (by omega)) (fun M hM => hZ M (by omega)) fun i hi => ?_
      obtain ⟨q, hq, hqk⟩ := hmemq i hi
      rw [← hqk]
      have e1 := ht2 (substitute (.sym n) (.num q.1) (abstractIC O f k sol), q.2) (by
        rw [equations, lastICs_append hlen]; exact List.mem_map.mpr ⟨q, hq, rfl⟩)
      rw [(heqs τ W ht1 hW (fun i hi => (hWv i hi).symm) q hq).mp e1]
      obtain ⟨m, hm, rfl⟩ := List.mem_iff_getElem.mp hq
      have hmk : m < k := hlen ▸ hm
      have hkey : suf[m].1 = f + d + m := by
        have := congrArg (fun l => l[m]?) hkeys
        simpa [hm, hmk] using this
      rw [hkey, hZX _ (by omega), hXv m hmk, dif_pos hmk]
    funext t
    by_cases ht : t ∈ (List.range k).map O.fresh
    · obtain ⟨i, hi, rfl⟩ := List.mem_map.mp ht
      have hi : i < k := by simpa using hi
      rw [h2 i hi, ← hWZ _ (by omega), hWv i hi]
    · rw [ht1 t ht, h1 t ((hnot t).mp ht)]

/-! ### A concrete case: `x(n) = 2 x(n-1)`, `x(3) = 16` -/

/-- `2 x(n-1)`. -/
def exRhs : Expr := .mul [.num 2, .fn .x [.add [.sym "n", .num (-1)]]]
/-- `x(0) 2^n`. -/
def exSol : Expr := .mul [xAt 0, .pow (.num 2) (.sym "n")]
/-- The symbols `u0`, `u1`, …. -/
def exFresh (i : ℕ) : String := String.ofList ('u' :: List.replicate i '0')
/-- The operations, with the answer of `lsolve` for `8 u = 16`. -/
def exOps : Ops where
  lsolve := fun eqs us => if eqs = [(.mul [.sym "u", .num 8], .num 16)] ∧ us = ["u"] then some [.num 2] else none
  fresh := exFresh
  simp := id
  simpLog := id

theorem exFresh_zero : exFresh 0 = "u" := rfl

theorem exFresh_inj (i j : ℕ) (h : exFresh i = exFresh j) : i = j := by
  have := congrArg String.length h
  simpa [exFresh] using this

theorem ex_fresh : Fresh ratInterp exOps "n" (fun _ => False) exSol where
  inj := exFresh_inj
  ne_n := by
    intro i h
    have h1 := congrArg String.toList h
    simp [exOps, exFresh] at h1
  notB := by simp
  sol := by
    intro i
    have h : "n" ≠ exFresh i := by
      intro h
      have h1 := congrArg String.toList h
      simp [exFresh] at h1
    simp [exSol, xAt, isScalarRep, exOps, h]

theorem ex_abstract : abstractIC exOps 0 1 exSol = .mul [.pow (.num 2) (.sym "n"), .sym "u"] := by
  simp [abstractIC, exSol, substitute, xAt, exOps, exFresh_zero, mulE, powE, List.range_succ]

theorem ex_equations : equations "n" 1 ([] ++ [(3, .num 16)]) id (abstractIC exOps 0 1 exSol) = [(.mul [.sym "u", .num 8], .num 16)] := by
  rw [ex_abstract]
  simp [equations, lastICs, substitute, mulE, powE]
  norm_num

theorem ex_result : linear exOps "n" 0 1 ([] ++ [(3, .num 16)]) exSol = some (.mul [.num 2, .pow (.num 2) (.sym "n")]) := by
  have h := ex_equations
  rw [linear]
  simp only [RecState.largestKey, bySystem, h]
  rw [ex_abstract]
  simp [exOps, backSub, substitute, exFresh_zero, mulE, powE, List.range_succ]

theorem ex_lsolve : LsolveOk ratInterp exOps "n" (fun _ => False) := by
  intro eqs us vals h _
  simp only [exOps] at h
  by_cases hc : eqs = [(.mul [.sym "u", .num 8], .num 16)] ∧ us = ["u"]
  · rw [if_pos hc] at h
    obtain ⟨rfl, rfl⟩ := hc
    simp only [Option.some.injEq] at h
    subst h
    refine ⟨rfl, by simp [Shape], ?_, ?_⟩
    · intro v hv Y ρ t w _
      simp only [List.mem_singleton] at hv
      subst hv
      simp [eval]
    · intro Y ρ σ _ h2 p hp
      have h3 := h2 ("u", .num 2) (by simp)
      simp only [List.mem_singleton] at hp
      subst hp
      simp only [eval] at h3
      norm_num [eval, h3]
  · rw [if_neg hc] at h
    cases h

theorem ex_linear (ρ : String → ℚ) : LinearAt ratInterp "n" exRhs ρ 0 1 (fun _ _ => 2) (fun _ => 0) where
  eq := by
    intro X N hN
    obtain ⟨M, rfl⟩ := Nat.exists_eq_add_of_le hN
    have e : eval (withX ratInterp X) (update ρ "n" ((0 + 1 + M : ℕ) : ℚ)) exRhs = 2 * X M := by
      simp [exRhs, eval, withX]
    rw [e]
    simp
  ne := by simp

theorem ex_solution (ρ : String → ℚ) : IsSolution ratInterp "n" exRhs ρ exSol 0 1 := by
  intro X hX N _
  have hX' : ∀ M : ℕ, X ((M + 1 : ℕ) : ℚ) = 2 * X M := by
    intro M
    rw [hX (M + 1) (by omega), (ex_linear ρ).eq X (M + 1) (by omega)]
    simp
  have h1 : ∀ M : ℕ, X (M : ℚ) = X 0 * 2 ^ M := by
    intro M
    induction M with
    | zero => simp
    | succ M ih => rw [hX', ih]; ring
  rw [h1 N]
  simp [exSol, xAt, eval, withX, ratInterp]

/-- **C114**, a concrete case: all hypotheses hold for `x(n) = 2 x(n-1)` with `x(3) = 16`; the solution is `2 * 2^n`. -/
theorem C114_nonvacuous (ρ : String → ℚ) :
    Fresh ratInterp exOps "n" (fun _ => False) exSol ∧ LsolveOk ratInterp exOps "n" (fun _ => False) ∧
    Shape (fun _ => False) (fun q => ∃ i < 1, q = ((0 + i : ℕ) : ℚ)) exSol ∧
    Value ratInterp "n" (fun _ => False) (fun t => ∃ i, t = exOps.fresh i) (.num 16) ∧
    LinearAt ratInterp "n" exRhs ρ 0 1 (fun _ _ => 2) (fun _ => 0) ∧ IsSolution ratInterp "n" exRhs ρ exSol 0 1 ∧
    exOps.lsolve (equations "n" 1 ([] ++ [(3, .num 16)]) id (abstractIC exOps 0 1 exSol)) ((List.range 1).map exOps.fresh) ≠ none ∧
    linear exOps "n" 0 1 ([] ++ [(3, .num 16)]) exSol = some (.mul [.num 2, .pow (.num 2) (.sym "n")]) ∧
    ∃ X : ℚ → ℚ, SolvesAt ratInterp "n" exRhs ρ X (3 + 1) ∧ X 3 = 16 := by
  refine ⟨ex_fresh, ex_lsolve, ?_, ⟨by simp [Shape], by intro Y ρ t v _; simp [eval]⟩, ex_linear ρ, ex_solution ρ, ?_, ex_result, ?_⟩
  · simp [exSol, xAt, Shape]
  · rw [ex_equations]
    simp [exOps, exFresh_zero, List.range_succ]
  · obtain ⟨X, h1, h2⟩ := forward_exists (f := 3) (w := fun _ => 16) (fun N hN => (ex_linear ρ).order N (by omega))
    exact ⟨X, h1, by simpa using h2 0 (by omega)⟩

/-! ### Accepted initial conditions that do not determine the solution -/

/-- **C115**, what the test of `set_initial_conditions` gives.  If the initial conditions of a linear recurrence of order `k ≥ 1`
are accepted and the largest index is at least `first + k - 1`, the last `k` indices are consecutive and not below the first
valid index, as C114 asks. -/
theorem C115_accepted_partial {info : Info} (ht : info.ty = .linConst ∨ info.ty = .linVar) (ho : 1 ≤ info.order) {m : ICMap}
    (hs : m.Sorted) (hb : ∀ i ∈ m.keys, i < 4294967296) (h : RecState.checkICs info m = .accepted)
    (hL : ∃ i ∈ m.keys, info.first + info.order ≤ i + 1) :
    ∃ (pre suf : ICMap) (j : ℕ), m = pre ++ suf ∧ suf.map Prod.fst = (List.range info.order).map (j + ·) ∧
      (∀ p ∈ pre, p.1 < j) ∧ info.first ≤ j := by
  have h' : RecState.checkFinite info false m = .accepted := by
    rcases ht with ht | ht <;> simpa [RecState.checkICs, ht] using h
  rw [checkFinite_iff info false m hs hb ho] at h'
  obtain ⟨⟨L, hLk, hmax, hfirst, hcons⟩, -⟩ := h'
  obtain ⟨i, hi, hi2⟩ := hL
  have hLi := hmax i hi
  have hlast : RecState.largestKey m = some L := by
    cases hl : RecState.largestKey m with
    | none =>
      have : m = [] := by simpa [RecState.largestKey] using hl
      subst this
      simp [ICMap.keys] at hLk
    | some L' =>
      obtain ⟨d, hd⟩ := rev_head hl
      have hpw : (L' :: d).Pairwise (· > ·) := hd ▸ sorted_rev hs
      have h1 : L ∈ L' :: d := by rw [← hd, List.mem_reverse]; exact hLk
      have h2 : L' ∈ m.keys := by
        have : L' ∈ (m.map Prod.fst).reverse := by rw [hd]; simp
        simpa [ICMap.keys] using this
      have h3 := hmax L' h2
      rcases List.mem_cons.mp h1 with h4 | h4
      · rw [h4]
      · have := (List.pairwise_cons.1 hpw).1 L h4
        omega
  obtain ⟨d, hd⟩ := rev_head hlast
  have hpw : (L :: d).Pairwise (· > ·) := hd ▸ sorted_rev hs
  have hmem : ∀ i, i ∈ m.keys ↔ i ∈ L :: d := by
    intro i; rw [← hd, List.mem_reverse]; rfl
  obtain ⟨hk, hget⟩ := (dec_list d L info.order hpw).1 (by simpa only [hmem] using hcons)
  have hlen : m.length = d.length + 1 := by
    have := congrArg List.length hd
    simpa using this
  refine ⟨m.take (m.length - info.order), m.drop (m.length - info.order), L + 1 - info.order, (List.take_append_drop ..).symm, ?_, ?_, by omega⟩
  · apply List.ext_getElem?
    intro i
    by_cases hi : i < info.order
    · have e := (hget (info.order - 1 - i) (by omega)).2
      rw [← hd, List.getElem?_reverse (by simp; omega)] at e
      simp only [List.length_map] at e
      rw [List.map_drop, List.getElem?_drop, show m.length - info.order + i = m.length - 1 - (info.order - 1 - i) by omega, e]
      have := (hget (info.order - 1 - i) (by omega)).1
      have h0 := (hget (info.order - 1) (by omega)).1
      simp only [List.getElem?_map, List.getElem?_range hi, Option.map_some, Option.some.injEq]
      omega
    · rw [List.getElem?_eq_none (by simp; omega), List.getElem?_eq_none (by simp; omega)]
  · intro p hp
    obtain ⟨i, hi, rfl⟩ := List.mem_iff_getElem.mp hp
    rw [List.length_take] at hi
    have hio : info.order ≤ m.length - 1 - i := by omega
    have h1 : (m.take (m.length - info.order))[i] = m[i]'(by omega) := by simp
    rw [h1]
    have hs' : (m.map Prod.fst).Pairwise (· < ·) := by rw [List.pairwise_map]; exact hs
    have e := (hget (info.order - 1) (by omega)).2
    rw [← hd, List.getElem?_reverse (by simp; omega)] at e
    simp only [List.length_map] at e
    have hlt : m.length - 1 - (info.order - 1) < (m.map Prod.fst).length := by simp; omega
    rw [List.getElem?_eq_getElem hlt, Option.some.injEq] at e
    have h2 := List.pairwise_iff_getElem.mp hs' i (m.length - 1 - (info.order - 1)) (by simp; omega) hlt (by omega)
    rw [e] at h2
    simp only [List.getElem_map] at h2
    have h0 := (hget (info.order - 1) (by omega)).1
    omega

end Purrs.OnIC
