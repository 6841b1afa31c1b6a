import Verif.Model.OrderRed
import Verif.Props.Expr
import Mathlib.Algebra.Order.Floor.Ring

/-!
# C30: the order reduction

The specification: with `n = g t + m`, the reduced recurrence is about the sequence `t ↦ x(g t + m)`.
-/

set_option linter.unusedSectionVars false

namespace Purrs.OrderRed

open Purrs
open Function (update update_of_ne update_self update_comm)

variable {K : Type} [Field K] [CharZero K] (I : Interp K)

/-- The interpretation in which the unknown is the function `X`. -/
def withX (X : K → K) : Interp K :=
  { I with fn := fun f l => match f, l with
      | .x, [v] => X v
      | f, l => I.fn f l }

/-- The residue class `m` of the unknown: the function `t ↦ X(g t + m)`. -/
def residue (X : K → K) (g : ℕ) (m : K) : K → K := fun t => X (g * t + m)

theorem eval_x (X : K → K) (ρ : String → K) (a : Expr) :
    eval (withX I X) ρ (.fn .x [a]) = X (eval (withX I X) ρ a) := by simp [eval, withX]

theorem fn_ne_x (X Y : K → K) {f : Fn} (hf : f ≠ .x) (l : List K) : (withX I X).fn f l = (withX I Y).fn f l := by
  cases f <;> first | rfl | exact absurd rfl hf

/-- No `x`, `n` or `r` at all. -/
def Inert (n r : String) (e : Expr) : Prop :=
  isScalarRep n e = true ∧ isScalarRep r e = true ∧ hasX e = false

/-- The factors that `rewrite_factor` handles: sums and products below powers and functions contain neither
`n` nor `x`; the argument of `x` is `n` plus a number. -/
inductive FactorOk (n r : String) : Expr → Prop
  | num (q) : FactorOk n r (.num q)
  | const (c) : FactorOk n r (.const c)
  | sym (s) : s ≠ r → FactorOk n r (.sym s)
  | add (l) : Inert n r (.add l) → FactorOk n r (.add l)
  | mul (l) : Inert n r (.mul l) → FactorOk n r (.mul l)
  | pow {b e} : FactorOk n r b → FactorOk n r e → FactorOk n r (.pow b e)
  | x1 (q) : FactorOk n r (.fn .x [.add [.sym n, .num q]])
  | x2 (q) : FactorOk n r (.fn .x [.add [.num q, .sym n]])
  | fn {f l} : f ≠ .x → (∀ a ∈ l, FactorOk n r a) → FactorOk n r (.fn f l)
  | binder {k s a b c} : s ≠ n → s ≠ r → FactorOk n r a → FactorOk n r b → FactorOk n r c →
      FactorOk n r (.binder k (.sym s) a b c)

/-- Expressions without `x` do not depend on its meaning. -/
theorem eval_noX (X Y : K → K) (e : Expr) (h : hasX e = false) :
    ∀ ρ : String → K, eval (withX I X) ρ e = eval (withX I Y) ρ e := by
  induction e using Expr.ind with
  | num q => intro ρ; simp [eval]
  | const q => intro ρ; simp [eval, withX]
  | sym s => intro ρ; simp [eval]
  | add l ih =>
    intro ρ
    simp [hasX] at h
    simp only [eval]
    congr 1
    exact List.map_congr_left fun a ha => ih a ha (h a ha) ρ
  | mul l ih =>
    intro ρ
    simp [hasX] at h
    simp only [eval]
    congr 1
    exact List.map_congr_left fun a ha => ih a ha (h a ha) ρ
  | pow b e hb he =>
    intro ρ
    simp [hasX] at h
    simp only [eval]
    rw [hb h.1, he h.2]; rfl
  | fn f l ih =>
    intro ρ
    have hf : f ≠ .x := by intro e; rw [e] at h; simp [hasX] at h
    have hl : ∀ a ∈ l, hasX a = false := by simpa [hasX, hf] using h
    simp only [eval]
    rw [fn_ne_x I X Y hf]
    congr 1
    exact List.map_congr_left fun a ha => ih a ha (hl a ha) ρ
  | binder k i a b c hi ha hb hc =>
    intro ρ
    simp [hasX] at h
    simp only [eval]
    rw [ha h.1.1.2, hb h.1.2]
    show I.bind _ _ _ _ = I.bind _ _ _ _
    congr 1
    funext w
    exact hc h.2 _

theorem eval_inert {n r : String} {e : Expr} (h : Inert n r e) (X Y : K → K) (ρ : String → K) (a b c : K) :
    eval (withX I X) (update (update ρ n a) r b) e = eval (withX I Y) (update ρ n c) e := by
  obtain ⟨h1, h2, h3⟩ := h
  rw [C20_scalar_sound _ r e h2, C20_scalar_sound _ n e h1, C20_scalar_sound _ n e h1, eval_noX I X Y e h3]

/-- Rewriting a factor: the value for the residue class at `t` is the value of the original at
`g t + m`. -/
theorem C30_rewrite_factor {n r : String} (hnr : n ≠ r) (g : ℕ) (hg : g ≠ 0) (X : K → K) (m t : K)
    {e : Expr} (h : FactorOk n r e) : ∀ ρ : String → K,
    eval (withX I (residue X g m)) (update (update ρ n t) r m) (rewriteFactor n r g e)
      = eval (withX I X) (update ρ n (g * t + m)) e := by
  have hg' : ((g : ℚ) : K) ≠ 0 := by push_cast; exact_mod_cast hg
  have hx : ∀ (ρ : String → K) (q : ℚ) (a : Expr), xDecrement a = q →
      eval (withX I (residue X g m)) (update (update ρ n t) r m) (rewriteFactor n r g (.fn .x [a]))
        = X (g * t + m + q) := by
    intro ρ q a ha
    simp only [rewriteFactor, if_true, List.headD_cons, ha]
    rw [eval_x, eval_addE]
    simp only [eval, residue, update_of_ne hnr, update_self, Rat.cast_div]
    congr 1
    have : (g : K) ≠ 0 := by exact_mod_cast hg
    push_cast
    field_simp
    ring
  induction h with
  | num q => intro ρ; simp [rewriteFactor, eval]
  | const c => intro ρ; simp [rewriteFactor, eval, withX]
  | sym s hs =>
    intro ρ
    by_cases h : s = n
    · simp only [rewriteFactor, if_pos h]
      rw [eval_addE, eval_mulE]
      simp [eval, h, hnr]
    · simp only [rewriteFactor, if_neg h, eval]
      rw [update_of_ne hs, update_of_ne h, update_of_ne h]
  | add l hl => intro ρ; simp only [rewriteFactor]; exact eval_inert I hl _ _ ρ _ _ _
  | mul l hl => intro ρ; simp only [rewriteFactor]; exact eval_inert I hl _ _ ρ _ _ _
  | pow _ _ hb he =>
    intro ρ
    rw [rewriteFactor, eval_powE, hb, he]; simp only [eval]; rfl
  | x1 q =>
    intro ρ
    rw [hx ρ q _ rfl, eval_x]
    simp [eval]
  | x2 q =>
    intro ρ
    rw [hx ρ q _ rfl, eval_x]
    simp [eval, add_comm]
  | @fn f l hf _ ih =>
    intro ρ
    simp only [rewriteFactor, if_neg hf, eval, List.map_map]
    rw [fn_ne_x I _ X hf]
    congr 1
    exact List.map_congr_left fun a ha => ih a ha ρ
  | @binder k s a b c h1 h2 _ _ _ ha hb hc =>
    intro ρ
    have e1 : rewriteFactor n r g (.sym s) = .sym s := by simp [rewriteFactor, h1]
    simp only [rewriteFactor, if_neg h1, eval]
    rw [ha, hb]
    show I.bind _ _ _ _ = I.bind _ _ _ _
    congr 1
    funext w
    simp only [bindIdx]
    rw [update_comm h2.symm, update_comm h1.symm, hc, update_comm h1.symm]

/-- The summands that `rewrite_term` handles. -/
def TermOk (n r : String) : Expr → Prop
  | .mul l => 1 < l.length ∧ ∀ a ∈ l, FactorOk n r a
  | e => FactorOk n r e

theorem rewriteTerm_spec {n r : String} (hnr : n ≠ r) (g : ℕ) (hg : g ≠ 0) (X : K → K) (m t : K)
    {e : Expr} (h : TermOk n r e) (ρ : String → K) :
    eval (withX I (residue X g m)) (update (update ρ n t) r m) (rewriteTerm n r g e)
      = eval (withX I X) (update ρ n (g * t + m)) e := by
  cases e with
  | mul l =>
    obtain ⟨h1, h2⟩ := h
    simp only [rewriteTerm]
    rw [if_pos h1, eval_foldr_mulE]
    simp only [eval, Rat.cast_one, one_mul]
    congr 1
    exact List.map_congr_left fun a ha => C30_rewrite_factor I hnr g hg X m t (h2 a ha) ρ
  | _ => exact C30_rewrite_factor I hnr g hg X m t h ρ

/-- The right hand sides that `write_reduced_order_recurrence` handles. -/
def RhsOk (n r : String) : Expr → Prop
  | .add l => 1 < l.length ∧ ∀ a ∈ l, TermOk n r a
  | e => TermOk n r e

/-- **C30**, the reduced recurrence: its right hand side at `t`, read for the residue class `m` of the
unknown, has the value of the original right hand side at `g t + m`. -/
theorem C30_reduced_rhs_partial {n r : String} (hnr : n ≠ r) (g : ℕ) (hg : g ≠ 0) (X : K → K) (m t : K)
    {rhs : Expr} (h : RhsOk n r rhs) (ρ : String → K) :
    eval (withX I (residue X g m)) (update (update ρ n t) r m) (writeReduced n r g rhs).1
      = eval (withX I X) (update ρ n (g * t + m)) rhs := by
  have one : ∀ e, TermOk n r e → eval (withX I (residue X g m)) (update (update ρ n t) r m)
      (addE (.num 0) (rewriteTerm n r g e)) = eval (withX I X) (update ρ n (g * t + m)) e := by
    intro e he
    rw [eval_addE, rewriteTerm_spec I hnr g hg X m t he]
    simp [eval]
  cases rhs with
  | add l =>
    obtain ⟨h1, h2⟩ := h
    simp only [writeReduced]
    rw [if_pos h1]
    have key : ∀ l : List Expr, (∀ a ∈ l, TermOk n r a) →
        eval (withX I (residue X g m)) (update (update ρ n t) r m)
          (l.foldr (fun a (st : Expr × Expr) => (addE st.1 (rewriteTerm n r g a),
            if hasXOf (.sym n) (rewriteTerm n r g a) = true then st.2
            else addE st.2 (rewriteTerm n r g a))) (.num 0, .num 0)).1
        = (l.map fun a => eval (withX I X) (update ρ n (g * t + m)) a).sum := by
      intro l hl
      induction l with
      | nil => simp [eval]
      | cons a l ih =>
        rw [List.foldr_cons, eval_addE, ih fun b hb => hl b (List.mem_cons_of_mem _ hb),
          rewriteTerm_spec I hnr g hg X m t (hl a List.mem_cons_self), List.map_cons, List.sum_cons, add_comm]
    rw [key l h2]
    simp [eval]
  | _ => exact one _ h

/-- The coefficients of the reduced recurrence: coefficient `j` is coefficient `g j` of the original. -/
theorem C30_reduced_coefficients {α : Type} [Zero α] (g : ℕ) (hg : 0 < g) (co : List α) (j : ℕ)
    (hj : j * g < co.length) : (newCoefficients g co).getD j 0 = co.getD (j * g) 0 := by
  unfold newCoefficients
  -- the entry `j` is written at step `j g` and by no other step
  have main : ∀ (k : ℕ) (l : List α), j < l.length → j * g < k →
      ((List.range k).foldr (fun i nc =>
        if i % g = 0 then nc.set (i / g) (co.getD i 0) else nc) l).getD j 0 = co.getD (j * g) 0 := by
    intro k
    induction k with
    | zero => intro l _ h; omega
    | succ k ih =>
      intro l hl hjk
      rw [List.range_succ, List.foldr_append, List.foldr_cons, List.foldr_nil]
      by_cases hk : j * g < k
      · apply ih _ _ hk
        split_ifs <;> simpa using hl
      · have hk' : k = j * g := by omega
        subst hk'
        rw [if_pos (Nat.mul_mod_left j g), Nat.mul_div_cancel j hg]
        -- the remaining steps do not touch entry `j`
        have rest : ∀ (k' : ℕ) (l : List α), k' ≤ j * g → l.getD j 0 = co.getD (j * g) 0 →
            ((List.range k').foldr (fun i nc =>
              if i % g = 0 then nc.set (i / g) (co.getD i 0) else nc) l).getD j 0 = co.getD (j * g) 0 := by
          intro k'
          induction k' with
          | zero => intro l _ h; exact h
          | succ k' ih' =>
            intro l hk' hl
            rw [List.range_succ, List.foldr_append, List.foldr_cons, List.foldr_nil]
            apply ih' _ (by omega)
            split_ifs with h
            · have hne : k' / g ≠ j := by
                intro e
                have := Nat.div_add_mod k' g
                rw [e, h, mul_comm] at this
                omega
              simp only [List.getD_eq_getElem?_getD] at hl ⊢
              rw [List.getElem?_set_ne hne]
              exact hl
            · exact hl
        apply rest _ _ (le_refl _)
        simp only [List.getD_eq_getElem?_getD]
        rw [List.getElem?_set_self hl]
        simp
  apply main
  · simp
    have := Nat.div_mul_le_self co.length g
    rcases Nat.lt_or_ge j (co.length / g + 1) with h | h
    · omega
    · exfalso
      have h1 := Nat.lt_div_mul_add (a := co.length) hg
      have : (co.length / g + 1) * g ≤ j * g := Nat.mul_le_mul_right g h
      rw [add_mul] at this
      omega
  · exact hj

/-! ### Coming back -/

/-- The solutions that `come_back_to_original_variable` handles: `x` is applied to numbers and no summation
index is `n` or `r`. -/
inductive SolOk (n r : String) : Expr → Prop
  | num (q) : SolOk n r (.num q)
  | const (c) : SolOk n r (.const c)
  | sym (s) : SolOk n r (.sym s)
  | add {l} : (∀ a ∈ l, SolOk n r a) → SolOk n r (.add l)
  | mul {l} : (∀ a ∈ l, SolOk n r a) → SolOk n r (.mul l)
  | pow {b e} : SolOk n r b → SolOk n r e → SolOk n r (.pow b e)
  | x (q) : SolOk n r (.fn .x [.num q])
  | fn {f l} : f ≠ .x → (∀ a ∈ l, SolOk n r a) → SolOk n r (.fn f l)
  | binder {k s a b c} : s ≠ n → s ≠ r → SolOk n r a → SolOk n r b → SolOk n r c →
      SolOk n r (.binder k (.sym s) a b c)

/-- Coming back: at `n = N` the result has the value of the solution of the reduced recurrence, read for the
residue class of `N`, at `(N - mod(N, g)) / g`. -/
theorem C30_come_back {n r : String} (hnr : n ≠ r) (g : ℕ) (X : K → K) (N M : K)
    (hM : I.fn .mod [N, (g : K)] = M) {e : Expr} (h : SolOk n r e) : ∀ ρ : String → K,
    eval (withX I X) (update ρ n N) (comeBack n r (modE n g) g e)
      = eval (withX I (residue X g M)) (update (update ρ n ((N - M) / g)) r M) e := by
  have hm : ∀ ρ : String → K, eval (withX I X) (update ρ n N) (modE n g) = M := by
    intro ρ
    simp only [modE, eval, List.map_cons, List.map_nil, update_self]
    rw [← hM]
    simp [withX]
  induction h with
  | num q => intro ρ; simp [comeBack, eval]
  | const c => intro ρ; simp [comeBack, eval, withX]
  | sym s =>
    intro ρ
    by_cases h1 : s = n
    · subst h1
      simp only [comeBack, if_true]
      rw [eval_mulE, eval_subE, hm]
      simp only [eval, update_self, update_of_ne hnr]
      push_cast
      ring
    · simp only [comeBack, if_neg h1]
      by_cases h2 : s = r
      · subst h2
        rw [if_pos rfl, hm]
        simp [eval]
      · rw [if_neg h2]
        simp [eval, h1, h2]
  | add _ ih =>
    intro ρ
    simp only [comeBack]
    rw [eval_foldr_addE]
    simp only [eval, Rat.cast_zero, zero_add]
    congr 1
    exact List.map_congr_left fun a ha => ih a ha ρ
  | mul _ ih =>
    intro ρ
    simp only [comeBack]
    rw [eval_foldr_mulE]
    simp only [eval, Rat.cast_one, one_mul]
    congr 1
    exact List.map_congr_left fun a ha => ih a ha ρ
  | pow _ _ hb he =>
    intro ρ
    rw [comeBack, eval_powE, hb, he]; simp only [eval]; rfl
  | x q =>
    intro ρ
    simp only [comeBack, if_true, List.headD_cons, comeBackArg]
    rw [eval_x, eval_x, eval_addE, hm]
    simp [eval, residue]
  | @fn f l hf _ ih =>
    intro ρ
    simp only [comeBack, if_neg hf, eval, List.map_map]
    rw [fn_ne_x I X (residue X g M) hf]
    congr 1
    exact List.map_congr_left fun a ha => ih a ha ρ
  | @binder k s a b c h1 h2 _ _ _ ha hb hc =>
    intro ρ
    simp only [comeBack, if_neg h1, if_neg h2, eval]
    rw [ha, hb]
    show I.bind _ _ _ _ = I.bind _ _ _ _
    congr 1
    funext w
    simp only [bindIdx]
    rw [update_comm h1.symm, hc, update_comm h2.symm, update_comm h1.symm]

/-! ### The whole reduction -/

/-- `X` satisfies `x(n) = rhs` at all naturals from `start` on. -/
def SolvesAt (n : String) (rhs : Expr) (ρ : String → K) (X : K → K) (start : ℕ) : Prop :=
  ∀ N : ℕ, start ≤ N → X N = eval (withX I X) (update ρ n N) rhs

/-- `sol` is the solution of `x(n) = rhs`, an equation valid from `f + k` on: every sequence satisfying the
equation has the value of `sol` at all `n ≥ f`. -/
def IsSolution (n : String) (rhs : Expr) (ρ : String → K) (sol : Expr) (f k : ℕ) : Prop :=
  ∀ X : K → K, SolvesAt I n rhs ρ X (f + k) → ∀ N : ℕ, f ≤ N → eval (withX I X) (update ρ n N) sol = X N

/-- **C30** (what the code guarantees).  If `sol` solves the reduced recurrence of order `k` and first valid
index `f` for every residue class, then coming back to the original variable yields an expression with the
value of the original sequence at every `n ≥ g f`.  Missing from the full property: right hand sides with `n`
in a sum or product below a power or a function, and the indices `n < g f` when `f > 0`; both are refuted
below. -/
theorem C30_order_reduction_partial {n r : String} (hnr : n ≠ r) (g : ℕ) (hg : g ≠ 0)
    (hmod : ∀ N : ℕ, I.fn .mod [(N : K), (g : K)] = ((N % g : ℕ) : K))
    {rhs : Expr} (hrhs : RhsOk n r rhs) {sol : Expr} (hsol : SolOk n r sol) (f k : ℕ) (ρ : String → K)
    (hred : ∀ m < g, IsSolution I n (writeReduced n r g rhs).1 (update ρ r (m : K)) sol f k)
    (X : K → K) (hX : SolvesAt I n rhs ρ X (f + g * k)) :
    ∀ N : ℕ, g * f ≤ N →
      eval (withX I X) (update ρ n N) (comeBack n r (modE n g) g sol) = X N := by
  intro N hN
  have hgpos : 0 < g := Nat.pos_of_ne_zero hg
  have hgK : (g : K) ≠ 0 := by exact_mod_cast hg
  set m := N % g with hm
  set t := N / g with ht
  have hNt : N = g * t + m := (Nat.div_add_mod N g).symm
  have hmg : m < g := Nat.mod_lt _ hgpos
  rw [C30_come_back I hnr g X N (m : K) (hmod N) hsol]
  have e1 : ((N : K) - (m : K)) / g = (t : K) := by
    rw [hNt]; push_cast; field_simp; ring
  rw [e1, update_comm hnr]
  have hres : SolvesAt I n (writeReduced n r g rhs).1 (update ρ r (m : K)) (residue X g (m : K)) (f + k) := by
    intro T hT
    rw [update_comm hnr.symm, C30_reduced_rhs_partial I hnr g hg X (m : K) (T : K) hrhs]
    have h2 : f + g * k ≤ g * T + m := by
      have h3 : g * (f + k) ≤ g * T := Nat.mul_le_mul_left g hT
      have h4 : f ≤ g * f := Nat.le_mul_of_pos_left f hgpos
      rw [mul_add] at h3
      omega
    have := hX (g * T + m) h2
    unfold residue
    push_cast at this
    exact this
  have hft : f ≤ t := by
    rw [ht, Nat.le_div_iff_mul_le hgpos, mul_comm]; exact hN
  have := hred m hmg _ hres t hft
  rw [this]
  unfold residue
  rw [hNt]
  push_cast
  rfl

/-! ### Refutations and a concrete case -/

/-- `x(n - 2) + (n + 1)^(-1)`. -/
def badRhs : Expr := .add [.fn .x [.add [.sym "n", .num (-2)]], .pow (.add [.sym "n", .num 1]) (.num (-1))]

/-- The full property fails for a sum below a power: in `x(n-2) + 1/(n+1)` the term `1/(n+1)` is kept as it
is instead of becoming `1/(2 n + r + 1)`, so the reduced recurrence is about a different sequence. -/
theorem C30_sum_in_power_refuted : ∃ (X : ℝ → ℝ) (m t : ℝ) (ρ : String → ℝ),
    eval (withX (realInterp 0) (residue X 2 m)) (update (update ρ "n" t) "r" m) (writeReduced "n" "r" 2 badRhs).1
      ≠ eval (withX (realInterp 0) X) (update ρ "n" (2 * t + m)) badRhs := by
  refine ⟨fun _ => 0, 0, 1, fun _ => 0, ?_⟩
  simp only [writeReduced, badRhs, List.length_cons, List.length_nil, List.foldr_cons, List.foldr_nil,
    rewriteTerm, rewriteFactor]
  have h : update (update (fun _ : String => (0 : ℝ)) "n" 1) "r" 0 "n" = 1 := by
    rw [update_of_ne (by decide), update_self]
  norm_num [eval_addE, eval_powE, eval, withX, residue, realInterp, Real.rpow_neg_one, h]

/-- `x(n - 2) + 1/log(n)`. -/
def lateRhs : Expr := .add [.fn .x [.add [.sym "n", .num (-2)]], .pow (.fn .log [.sym "n"]) (.num (-1))]

/-- `x(1) + sum(k, 2, n, 1/log(2 k + r))`. -/
def lateSol : Expr := .add [.fn .x [.num 1], .binder .sum (.sym "k") (.num 2) (.sym "n")
  (.pow (.fn .log [.add [.mul [.num 2, .sym "k"], .sym "r"]]) (.num (-1)))]

theorem lateRhs_ok : RhsOk "n" "r" lateRhs := by
  refine ⟨by simp, ?_⟩
  intro a ha
  simp only [List.mem_cons, List.not_mem_nil, or_false] at ha
  rcases ha with rfl | rfl
  · exact .x1 _
  · refine .pow (.fn (by simp) ?_) (.num _)
    intro a ha
    rw [List.mem_singleton] at ha
    subst ha
    exact .sym _ (by decide)

theorem lateSol_ok : SolOk "n" "r" lateSol := by
  refine .add ?_
  intro a ha
  simp only [List.mem_cons, List.not_mem_nil, or_false] at ha
  rcases ha with rfl | rfl
  · exact .x _
  · refine .binder (by decide) (by decide) (.num _) (.sym _) (.pow (.fn (by simp) ?_) (.num _))
    intro a ha
    rw [List.mem_singleton] at ha
    subst ha
    refine .add ?_
    intro a ha
    simp only [List.mem_cons, List.not_mem_nil, or_false] at ha
    rcases ha with rfl | rfl
    · refine .mul ?_
      intro a ha
      simp only [List.mem_cons, List.not_mem_nil, or_false] at ha
      rcases ha with rfl | rfl
      · exact .num _
      · exact .sym _
    · exact .sym _

theorem real_mod (g : ℕ) (N : ℕ) : (realInterp 0).fn .mod [(N : ℝ), (g : ℝ)] = ((N % g : ℕ) : ℝ) := by
  show (N : ℝ) - g * (⌊(N : ℝ) / g⌋ : ℤ) = _
  have : ⌊(N : ℝ) / g⌋ = ((N / g : ℕ) : ℤ) := by
    rw [Int.floor_div_natCast, Int.floor_natCast]; rfl
  rw [this]
  have h2 : (N : ℝ) = g * ((N / g : ℕ) : ℝ) + (N % g : ℕ) := by exact_mod_cast (Nat.div_add_mod N g).symm
  rw [Int.cast_natCast]
  linarith

theorem late_reduced : (writeReduced "n" "r" 2 lateRhs).1 = addE (addE (.num 0)
      (powE (.fn .log [addE (mulE (.num 2) (.sym "n")) (.sym "r")]) (.num (-1))))
    (.fn .x [addE (.sym "n") (.num (-1))]) := by
  simp [writeReduced, lateRhs, rewriteTerm, rewriteFactor, xDecrement]

theorem late_solution (m : ℕ) (ρ : String → ℝ) :
    IsSolution (realInterp 0) "n" (writeReduced "n" "r" 2 lateRhs).1 (update ρ "r" (m : ℝ)) lateSol 1 1 := by
  intro X hX N hN
  have hstep : ∀ T : ℕ, 2 ≤ T → X T = X ((T : ℝ) - 1) + (Real.log (2 * T + m))⁻¹ := by
    intro T hT
    have := hX T hT
    rw [this, late_reduced]
    simp [eval_addE, eval_mulE, eval_powE, eval, withX, realInterp, realFn, Real.rpow_neg_one]
    ring_nf
  have hev : ∀ N : ℕ, eval (withX (realInterp 0) X) (update (update ρ "r" (m : ℝ)) "n" (N : ℝ)) lateSol
      = X 1 + ∑ i ∈ Finset.Icc (2 : ℤ) N, (Real.log (2 * i + m))⁻¹ := by
    intro N
    simp [lateSol, eval, withX, realInterp, realFn, bindIdx, Real.rpow_neg_one]
  rw [hev]
  induction N, hN using Nat.le_induction with
  | base => simp
  | succ N h ih =>
    have e : Finset.Icc (2 : ℤ) ((N + 1 : ℕ) : ℤ) = insert ((N : ℤ) + 1) (Finset.Icc (2 : ℤ) N) := by
      ext i; simp; omega
    rw [e, Finset.sum_insert (by simp), hstep (N + 1) (by omega)]
    push_cast
    rw [add_sub_cancel_right, ← ih]
    ring

/-- `a 0 = a 1 = 0`, `a (n+2) = a n + 1/log(n+2)`. -/
noncomputable def lateSeq : ℕ → ℝ
  | 0 => 0
  | 1 => 0
  | n + 2 => lateSeq n + (Real.log (n + 2))⁻¹

/-- The full property fails below `g f`: for `x(n) = x(n-2) + 1/log(n)`, valid from the first valid index 1
on, the solution obtained through the reduced recurrence is wrong at `n = 1`, although it is right for the
reduced recurrence. -/
theorem C30_late_start_refuted : ∃ (X : ℝ → ℝ) (ρ : String → ℝ),
    RhsOk "n" "r" lateRhs ∧ SolOk "n" "r" lateSol ∧
    (∀ m < 2, IsSolution (realInterp 0) "n" (writeReduced "n" "r" 2 lateRhs).1 (update ρ "r" ((m : ℕ) : ℝ))
      lateSol 1 1) ∧
    SolvesAt (realInterp 0) "n" lateRhs ρ X (1 + 2 * 1) ∧
    eval (withX (realInterp 0) X) (update ρ "n" ((1 : ℕ) : ℝ)) (comeBack "n" "r" (modE "n" 2) 2 lateSol)
      ≠ X ((1 : ℕ) : ℝ) := by
  refine ⟨fun v => lateSeq ⌊v⌋₊, fun _ => 0, lateRhs_ok, lateSol_ok, fun m _ => late_solution m _, ?_, ?_⟩
  · intro N hN
    obtain ⟨M, rfl⟩ : ∃ M, N = M + 2 := ⟨N - 2, by omega⟩
    have e : ((M : ℝ) + 2 + -2) = M := by ring
    simp [lateRhs, eval, withX, realInterp, realFn, Real.rpow_neg_one, e]
    have : ⌊(M : ℝ) + 2⌋₊ = M + 2 := by
      have := Nat.floor_natCast (R := ℝ) (M + 2); push_cast at this; exact this
    rw [this, lateSeq]
  · rw [C30_come_back (realInterp 0) (by decide) 2 _ ((1 : ℕ) : ℝ) 1 (by
      have := real_mod 2 1
      simpa using this) lateSol_ok]
    have h3 : ⌊(2 : ℝ) + 1⌋₊ = 3 := by norm_num
    have : Real.log 3 ≠ 0 := by
      have : (0 : ℝ) < Real.log 3 := Real.log_pos (by norm_num)
      exact this.ne'
    simp [lateSol, eval, withX, realInterp, realFn, residue, bindIdx, h3, lateSeq]
    norm_num

/-- The hypotheses of `C30_order_reduction_partial` are met by this recurrence and its solution. -/
example : ∃ (X : ℝ → ℝ), SolvesAt (realInterp 0) "n" lateRhs (fun _ => 0) X (1 + 2 * 1) ∧
    ∀ N : ℕ, 2 * 1 ≤ N → eval (withX (realInterp 0) X) (update (fun _ => 0) "n" (N : ℝ))
      (comeBack "n" "r" (modE "n" 2) 2 lateSol) = X N := by
  obtain ⟨X, ρ, h1, h2, h3, h4, -⟩ := C30_late_start_refuted
  refine ⟨X, ?_, ?_⟩
  · intro N hN
    have := h4 N hN
    rw [this]
    simp [lateRhs, eval, withX]
  · apply C30_order_reduction_partial (realInterp 0) (by decide) 2 (by decide) (real_mod 2) h1 h2 1 1 _
      (fun m _ => late_solution m _) X
    intro N hN
    have := h4 N hN
    rw [this]
    simp [lateRhs, eval, withX]

end Purrs.OrderRed
