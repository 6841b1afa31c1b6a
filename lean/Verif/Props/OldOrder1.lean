import Verif.Model.OldOrder1
import Verif.Props.OldMethod

/-!
# The old method of the linear solver for order 1 (C161)
-/

set_option linter.unusedSectionVars false

namespace Purrs.OldMethod

open Function (update update_of_ne update_self)
open OrderRed (withX IsSolution idxNe)
open OnIC (Shape shape_addE shape_mulE shape_powE shape_substitute shape_hasX shape_mono)
open WeightedAvg (divE eval_divE)
open Verify (xAt)
open SolveLin
open Exact (EPTerm epSum solveOrder1 oldSolution1 returnSum)
open Polynomial

variable {K : Type} [Field K] [CharZero K] {I : Interp K}

/-! ### Specification -/

/-- The valuation differs from `ρ` at most in the symbols `V`. -/
def OffV (V : String → Prop) (ρ σ : String → K) : Prop := ∀ t, ¬ V t → σ t = ρ t

/-- The expression does not depend on the symbols `V` and `x`, and its value is `v`. -/
structure ConstV (I : Interp K) (V : String → Prop) (ρ : String → K) (e : Expr) (v : K) : Prop where
  ignores : Ignores I V e
  value : ∀ X : K → K, eval (withX I X) ρ e = v

/-- The symbols created by the functions are different from each other and from the summation indices `B0`; `V` contains them all. -/
structure NewSymbols (s : Names) (B0 V : String → Prop) : Prop where
  nodup : [s.n, s.k, s.x, s.alpha, s.lambda, s.h].Nodup
  notIdx : ∀ t ∈ [s.n, s.k, s.x, s.alpha, s.lambda, s.h], ¬ B0 t
  mem : ∀ t ∈ [s.n, s.k, s.x, s.alpha, s.lambda, s.h], V t
  idx : ∀ t, B0 t → V t

/-- One term of the decomposition of the inhomogeneous term: `(poly(n) + rest(n)) base^n`; and what `sum_poly_times_exponentials`, the simplification of
the sum and Gosper's algorithm return for it. -/
structure TermOk (I : Interp K) (P : Ops1) (s : Names) (B0 B V : String → Prop) (ρ : String → K) (f : ℕ) (root : Expr)
    (t : Expr × Expr × Expr) (d : EPTerm K) : Prop where
  ne : d.base ≠ 0
  base : ConstV I V ρ t.1 d.base
  poly : ∀ (X : K → K) (σ : String → K) (j : ℕ), OffV V ρ σ → σ s.n = j → eval (withX I X) σ t.2.1 = d.poly.eval (j : K)
  rest : ∀ (X : K → K) (σ : String → K) (j : ℕ), f ≤ j → OffV V ρ σ → σ s.n = j → eval (withX I X) σ t.2.2 = d.rest j
  shapeB : Shape B0 (fun _ => False) t.1
  shapeP : Shape B0 (fun _ => False) t.2.1
  shapeR : Shape B0 (fun _ => False) t.2.2
  sumD : ∀ (X : K → K) (σ : String → K) (N : ℕ), OffV V ρ σ → σ s.n = N → σ s.x ≠ 1 →
    eval (withX I X) σ (P.polyExp (qk s t.2.1) (.sym s.x)) = ∑ j ∈ Finset.range (N + 1), d.poly.eval (j : K) * σ s.x ^ j
  sumN : ∀ (X : K → K) (σ : String → K) (N : ℕ), OffV V ρ σ → σ s.n = N →
    eval (withX I X) σ (P.polyExp (qk s t.2.1) (.num 1)) = ∑ j ∈ Finset.range (N + 1), d.poly.eval (j : K)
  sumShape : Shape B0 (fun _ => False) (P.polyExp (qk s t.2.1) (.sym s.x)) ∧ Shape B0 (fun _ => False) (P.polyExp (qk s t.2.1) (.num 1))
  simp : ∀ (distinct : Bool) (X : K → K) (σ : String → K) (N : ℕ), f ≤ N → OffV V ρ σ → σ s.n = N → σ s.alpha ≠ 0 → σ s.lambda ≠ 0 →
    (distinct = true → σ s.alpha ≠ σ s.lambda) →
    eval (withX I X) σ (returnSumE P s distinct (f + 1) t.2.1) = eval (withX I X) σ (rawSum P s distinct (f + 1) t.2.1)
  simpShape : ∀ distinct, Shape B0 (fun _ => False) (returnSumE P s distinct (f + 1) t.2.1)
  gosper : ∀ g, t.2.2 ≠ .num 0 → P.gosper (f + 1) (summandE s root t) = some g → Shape B (fun _ => False) g ∧
    ∀ (X : K → K) (σ : String → K) (N : ℕ), f ≤ N → OffV V ρ σ → σ s.n = N →
      eval (withX I X) σ g = ∑ j ∈ Finset.Icc (f + 1) N, eval (withX I X) (update σ s.n (j : K)) (summandE s root t)

section
variable {P : Ops1} {s : Names} {B0 B V : String → Prop} {ρ : String → K} {f : ℕ} {root : Expr}

theorem OffV.update {σ : String → K} (h : OffV V ρ σ) {t : String} (ht : V t) (v : K) : OffV V ρ (Function.update σ t v) := fun u hu => by
  rw [update_of_ne (by rintro rfl; exact hu ht), h u hu]

theorem offV_self : OffV V ρ ρ := fun _ _ => rfl

theorem ConstV.eval {e : Expr} {v : K} (h : ConstV I V ρ e v) (X : K → K) {σ : String → K} (hs : OffV V ρ σ) : Purrs.eval (withX I X) σ e = v := by
  rw [h.ignores X σ ρ hs, h.value]

theorem ConstV.indep {e : Expr} {v : K} (h : ConstV I V ρ e v) (hB : ∀ t, B0 t → V t) (X : K → K) (τ : String → K) (u : String) (w : K) (hu : B0 u) :
    Purrs.eval (withX I X) (Function.update τ u w) e = Purrs.eval (withX I X) τ e :=
  h.ignores X _ _ fun t ht => update_of_ne (by rintro rfl; exact ht (hB _ hu)) _ _

/-- The symbols in use. -/
theorem NewSymbols.all (hN : NewSymbols s B0 V) :
    (¬ B0 s.n ∧ ¬ B0 s.k ∧ ¬ B0 s.x ∧ ¬ B0 s.alpha ∧ ¬ B0 s.lambda ∧ ¬ B0 s.h) ∧ (V s.n ∧ V s.k ∧ V s.x ∧ V s.alpha ∧ V s.lambda ∧ V s.h) ∧
      s.n ≠ s.k ∧ s.n ≠ s.x ∧ s.n ≠ s.alpha ∧ s.n ≠ s.lambda ∧ s.n ≠ s.h ∧ s.x ≠ s.alpha ∧ s.x ≠ s.lambda ∧ s.alpha ≠ s.lambda := by
  have h1 := hN.nodup
  have h2 := hN.notIdx
  have h3 := hN.mem
  simp only [List.nodup_cons, List.mem_cons, not_or, List.not_mem_nil, forall_eq_or_imp, or_false, forall_eq] at h1 h2 h3
  exact ⟨⟨h2.1, h2.2.1, h2.2.2.1, h2.2.2.2.1, h2.2.2.2.2.1, h2.2.2.2.2.2⟩, ⟨h3.1, h3.2.1, h3.2.2.1, h3.2.2.2.1, h3.2.2.2.2.1, h3.2.2.2.2.2⟩,
    h1.1.1, h1.1.2.1, h1.1.2.2.1, h1.1.2.2.2.1, h1.1.2.2.2.2, h1.2.2.1.1, h1.2.2.1.2.1, h1.2.2.2.1.1⟩

/-! ### The sum of one term -/

variable {t : Expr × Expr × Expr} {d : EPTerm K}

theorem shape_qk (hN : NewSymbols s B0 V) {c : Expr} (hc : Shape B0 (fun _ => False) c) : Shape B0 (fun _ => False) (qk s c) :=
  shape_substS hN.all.1.1 (shape_sym _) hc

theorem shape_termJ (hN : NewSymbols s B0 V) {c : Expr} (hc : Shape B0 (fun _ => False) c) (j : ℕ) : Shape B0 (fun _ => False) (termJ s c j) :=
  shape_mulE (shape_mulE (shape_substS hN.all.1.2.1 (shape_num _) (shape_qk hN hc)) (shape_powE (shape_sym _) (shape_num _)))
    (shape_powE (shape_sym _) (shape_num _))

theorem termJ_value (hN : NewSymbols s B0 V) (ht : TermOk I P s B0 B V ρ f root t d) (X : K → K) {σ : String → K} (hs : OffV V ρ σ) (j : ℕ) :
    eval (withX I X) σ (termJ s t.2.1 j) = d.poly.eval (j : K) * σ s.alpha ^ j * σ s.lambda ^ (-(j : ℤ)) := by
  obtain ⟨⟨b1, b2, b3, b4, b5, b6⟩, ⟨v1, v2, v3, v4, v5, v6⟩, _⟩ := hN.all
  have e1 : eval (withX I X) σ (substitute (.sym s.k) (.num j) (qk s t.2.1)) = d.poly.eval (j : K) := by
    rw [eval_subst (withX I X) b2 (fun τ u v _ => by simp [eval]) (shape_qk hN ht.shapeP), qk,
      eval_subst (withX I X) b1 (fun τ u v hu => by simp only [eval]; rw [update_of_ne (by rintro rfl; exact b2 hu)]) ht.shapeP]
    refine ht.poly X _ j ((hs.update v2 _).update v1 _) ?_
    rw [update_self]
    simp only [eval, update_self]
    simp
  rw [termJ, eval_mulE, eval_mulE, e1, eval_powE, eval_powE]
  simp only [eval]
  congr 2
  · rw [Rat.cast_natCast, pw_nat]
  · rw [show (((-(j : ℚ) : ℚ)) : K) = ((-(j : ℤ) : ℤ) : K) by push_cast; rfl, (withX I X).pw_int]

theorem shape_sub_foldl (g : ℕ → Expr) {S : ℚ → Prop} : ∀ (l : List ℕ) (z : Expr), Shape B0 S z → (∀ a, Shape B0 S (g a)) →
    Shape B0 S (l.foldl (fun e j => subE e (g j)) z) := by
  intro l
  induction l with
  | nil => intro z hz _; exact hz
  | cons a l ih => intro z hz h; exact ih _ (shape_subE hz (h a)) h

theorem eval_sub_foldl (J : Interp K) (σ : String → K) (g : ℕ → Expr) (G : ℕ → K) (hg : ∀ j, eval J σ (g j) = G j) : ∀ (l : List ℕ) (z : Expr),
    eval J σ (l.foldl (fun e j => subE e (g j)) z) = l.foldl (fun v j => v - G j) (eval J σ z) := by
  intro l
  induction l with
  | nil => intro z; rfl
  | cons a l ih => intro z; rw [List.foldl_cons, List.foldl_cons, ih, eval_subE, hg]

/-- The value of `return_sum`, for values of `alpha` and `lambda`. -/
theorem rawSum_value (hN : NewSymbols s B0 V) (ht : TermOk I P s B0 B V ρ f root t d) (distinct : Bool) (X : K → K) {σ : String → K}
    (hs : OffV V ρ σ) {N : ℕ} (hn : σ s.n = N) (hl : σ s.lambda ≠ 0) (hd : distinct = true → σ s.alpha ≠ σ s.lambda) (lower : ℕ) :
    eval (withX I X) σ (rawSum P s distinct lower t.2.1) = returnSum distinct lower d.poly (σ s.alpha) (σ s.lambda) N := by
  obtain ⟨⟨b1, b2, b3, b4, b5, b6⟩, ⟨v1, v2, v3, v4, v5, v6⟩, n1, n2, n3, n4, n5, n6, n7, n8⟩ := hN.all
  have hpow : eval (withX I X) σ (powE (.sym s.lambda) (.sym s.n)) = σ s.lambda ^ N := by
    rw [eval_powE]; simp only [eval]; rw [hn, pw_nat]
  unfold rawSum returnSum
  dsimp only
  rw [eval_mulE, hpow]
  congr 1
  cases distinct with
  | true =>
    simp only [if_true]
    have hq : σ s.alpha / σ s.lambda ≠ 1 := by
      rw [Ne, div_eq_one_iff_eq hl]
      exact hd rfl
    have hx : eval (withX I X) σ (divE (.sym s.alpha) (.sym s.lambda)) = σ s.alpha / σ s.lambda := by
      rw [eval_divE]; simp only [eval]
    rw [eval_subst (withX I X) b3 (fun τ u v hu => ?_) (shape_sub_foldl _ _ _ ht.sumShape.1 (shape_termJ hN ht.shapeP)), hx,
      eval_sub_foldl _ _ _ _ fun j => termJ_value hN ht X (hs.update v3 _) j,
      ht.sumD X _ N (hs.update v3 _) (by rw [update_of_ne n2, hn]) (by rw [update_self]; exact hq)]
    · rw [update_self, update_of_ne n6.symm, update_of_ne n7.symm]
    · rw [eval_divE, eval_divE]
      simp only [eval]
      rw [update_of_ne (by rintro rfl; exact b4 hu), update_of_ne (by rintro rfl; exact b5 hu)]
  | false =>
    simp only [Bool.false_eq_true, if_false]
    rw [eval_sub_foldl _ _ _ _ fun j => termJ_value hN ht X hs j, ht.sumN X σ N hs hn]
    simp

/-! ### The sums are collected and the values of the root and the bases put in -/

/-- The entry for a term. -/
def entry (P : Ops1) (s : Names) (root : Expr) (lower : ℕ) (t : Expr × Expr × Expr) : Expr :=
  if t.1 ≠ root then returnSumE P s true lower t.2.1 else returnSumE P s false lower t.2.1

theorem subsSums_eq (root : Expr) (lower : ℕ) (ts : List (Expr × Expr × Expr)) :
    subsSums s root ts (symbolicSums P s root lower ts)
      = ts.foldr (fun t e => addE e (substitute (.sym s.lambda) root (substitute (.sym s.alpha) t.1 (entry P s root lower t)))) (.num 0) := by
  unfold subsSums symbolicSums
  rw [← List.foldl_reverse]
  generalize ts.reverse = l
  have key : ∀ (l pre : List (Expr × Expr × Expr)) (e : Expr),
      (l.zipIdx pre.length).foldl (fun solution p =>
        let v := ((pre ++ l).map fun t =>
          if root = t.1 then (Expr.num 0, returnSumE P s false lower t.2.1) else (returnSumE P s true lower t.2.1, Expr.num 0)).getD p.2 (.num 0, .num 0)
        let tmp := if p.1.1 ≠ root then v.1 else v.2
        addE solution (substitute (.sym s.lambda) root (substitute (.sym s.alpha) p.1.1 tmp))) e
      = l.foldl (fun e t => addE e (substitute (.sym s.lambda) root (substitute (.sym s.alpha) t.1 (entry P s root lower t)))) e := by
    intro l
    induction l with
    | nil => intro pre e; rfl
    | cons t l ih =>
      intro pre e
      rw [List.zipIdx_cons, List.foldl_cons, List.foldl_cons]
      have h1 : ((pre ++ t :: l).map fun t =>
          if root = t.1 then (Expr.num 0, returnSumE P s false lower t.2.1) else (returnSumE P s true lower t.2.1, Expr.num 0)).getD pre.length (.num 0, .num 0)
          = if root = t.1 then (Expr.num 0, returnSumE P s false lower t.2.1) else (returnSumE P s true lower t.2.1, Expr.num 0) := by
        simp
      dsimp only
      rw [h1]
      have h2 : (if t.1 ≠ root then
            (if root = t.1 then (Expr.num 0, returnSumE P s false lower t.2.1) else (returnSumE P s true lower t.2.1, Expr.num 0)).1
          else (if root = t.1 then (Expr.num 0, returnSumE P s false lower t.2.1) else (returnSumE P s true lower t.2.1, Expr.num 0)).2)
          = entry P s root lower t := by
        unfold entry
        by_cases h : t.1 = root
        · rw [if_neg fun h' : t.1 ≠ root => h' h, if_neg fun h' : t.1 ≠ root => h' h, if_pos h.symm]
        · rw [if_pos (show t.1 ≠ root from h), if_pos (show t.1 ≠ root from h), if_neg fun h' => h h'.symm]
      rw [h2]
      have := ih (pre ++ [t]) (addE e (substitute (.sym s.lambda) root (substitute (.sym s.alpha) t.1 (entry P s root lower t))))
      rw [List.append_assoc, List.singleton_append, List.length_append, List.length_singleton] at this
      exact this
  have := key l [] (.num 0)
  simpa using this

theorem entry_shape (ht : TermOk I P s B0 B V ρ f root t d) : Shape B0 (fun _ => False) (entry P s root (f + 1) t) := by
  unfold entry
  split
  · exact ht.simpShape true
  · exact ht.simpShape false

/-- One term, with the values of the root and the base. -/
theorem subs_value [DecidableEq K] (hN : NewSymbols s B0 V) (ht : TermOk I P s B0 B V ρ f root t d) {r : K} (hr : r ≠ 0) (hroot : ConstV I V ρ root r)
    (heq : t.1 = root ↔ d.base = r) (X : K → K) {σ : String → K} (hs : OffV V ρ σ) {N : ℕ} (hf : f ≤ N) (hn : σ s.n = N) :
    eval (withX I X) σ (substitute (.sym s.lambda) root (substitute (.sym s.alpha) t.1 (entry P s root (f + 1) t)))
      = returnSum (d.base ≠ r) (f + 1) d.poly d.base r N := by
  obtain ⟨⟨b1, b2, b3, b4, b5, b6⟩, ⟨v1, v2, v3, v4, v5, v6⟩, n1, n2, n3, n4, n5, n6, n7, n8⟩ := hN.all
  rw [eval_subst (withX I X) b5 (fun τ u w hu => hroot.indep hN.idx X τ u w hu)
      (shape_substS b4 ht.shapeB (entry_shape ht)), hroot.eval X hs,
    eval_subst (withX I X) b4 (fun τ u w hu => ht.base.indep hN.idx X τ u w hu) (entry_shape ht), ht.base.eval X (hs.update v5 _)]
  set τ := update (update σ s.lambda r) s.alpha d.base with hτ
  have o : OffV V ρ τ := (hs.update v5 _).update v4 _
  have hn' : τ s.n = N := by rw [hτ, update_of_ne n3, update_of_ne n4, hn]
  have ha : τ s.alpha = d.base := update_self _ _ _
  have hl : τ s.lambda = r := by rw [hτ, update_of_ne n8.symm, update_self]
  unfold entry
  by_cases h : t.1 = root
  · have hb := heq.mp h
    rw [if_neg (by simpa using h), ht.simp false X τ N hf o hn' (by rw [ha]; exact ht.ne) (by rw [hl]; exact hr) (by simp),
      rawSum_value hN ht false X o hn' (by rw [hl]; exact hr) (by simp), ha, hl]
    congr 1
    simpa using hb
  · have hb : d.base ≠ r := fun hb => h (heq.mpr hb)
    rw [if_pos h, ht.simp true X τ N hf o hn' (by rw [ha]; exact ht.ne) (by rw [hl]; exact hr) (fun _ => by rw [ha, hl]; exact hb),
      rawSum_value hN ht true X o hn' (by rw [hl]; exact hr) (fun _ => by rw [ha, hl]; exact hb), ha, hl]
    congr 1
    simpa using hb

/-! ### The other terms -/

theorem pow_value {e : Expr} {v : K} (he : ConstV I V ρ e v) (X : K → K) {σ : String → K} (hs : OffV V ρ σ) {a : String} {N : ℕ} (hn : σ a = N) :
    eval (withX I X) σ (powE e (.sym a)) = v ^ N ∧ eval (withX I X) σ (powE e (negE (.sym a))) = v ^ (-(N : ℤ)) := by
  constructor
  · rw [eval_powE, he.eval X hs]; simp only [eval]; rw [hn, pw_nat]
  · rw [eval_powE, he.eval X hs, negE, eval_mulE]
    simp only [eval]
    rw [hn, show (((-1 : ℚ) : K) * (N : K)) = ((-(N : ℤ) : ℤ) : K) by push_cast; ring, (withX I X).pw_int]

theorem shape_symbolic (hN : NewSymbols s B0 V) (hB : ∀ t, B0 t → B t) (hh : B s.h) (hnB : ¬ B s.n) (ht : TermOk I P s B0 B V ρ f root t d)
    (hroot : Shape B0 (fun _ => False) root) (lower : ℕ) : Shape B (fun _ => False) (symbolicE s root lower t) := by
  unfold symbolicE
  rw [Shape]
  exact ⟨⟨_, rfl, hh⟩, shape_num _, shape_sym _, shape_mulE (shape_mulE (shape_powE (shape_le hB hroot) (shape_mulE (shape_num _) (shape_sym _)))
    (shape_substS hnB (shape_sym _) (shape_le hB ht.shapeR))) (shape_substS hnB (shape_sym _) (shape_powE (shape_le hB ht.shapeB) (shape_sym _)))⟩

/-- The sum of the other part of one term. -/
theorem gosper_value (hstd : EvalRules.StdBind I) (hN : NewSymbols s B0 V) (hB : ∀ t, B0 t → B t) (hh : B s.h) (hnB : ¬ B s.n)
    (ht : TermOk I P s B0 B V ρ f root t d) {r : K} (hroot : ConstV I V ρ root r) (hrs : Shape B0 (fun _ => False) root) :
    Shape B (fun _ => False) (gosperE P s root (f + 1) t) ∧ ∀ (X : K → K) (σ : String → K) (N : ℕ), f ≤ N → OffV V ρ σ → σ s.n = N →
      eval (withX I X) σ (gosperE P s root (f + 1) t) = ∑ j ∈ Finset.Icc (f + 1) N, r ^ (-(j : ℤ)) * d.rest j * d.base ^ j := by
  obtain ⟨⟨b1, b2, b3, b4, b5, b6⟩, ⟨v1, v2, v3, v4, v5, v6⟩, n1, n2, n3, n4, n5, n6, n7, n8⟩ := hN.all
  unfold gosperE
  by_cases h0 : t.2.2 = .num 0
  · rw [if_pos h0]
    refine ⟨shape_num _, fun X σ N hf hs hn => ?_⟩
    rw [eval, Finset.sum_eq_zero]
    · simp
    intro j hj
    have hj' := Finset.mem_Icc.mp hj
    have := ht.rest X (update ρ s.n (j : K)) j (by omega) (offV_self.update v1 _) (update_self _ _ _)
    rw [h0, eval, Rat.cast_zero] at this
    rw [← this]
    ring
  · rw [if_neg h0]
    cases hg : P.gosper (f + 1) (summandE s root t) with
    | some g =>
      obtain ⟨g1, g2⟩ := ht.gosper g h0 hg
      refine ⟨g1, fun X σ N hf hs hn => ?_⟩
      dsimp only
      rw [g2 X σ N hf hs hn]
      refine Finset.sum_congr rfl fun j hj => ?_
      have hj' := Finset.mem_Icc.mp hj
      have o := hs.update v1 (j : K)
      rw [summandE, eval_mulE, eval_mulE, (pow_value ht.base X o (update_self _ _ _)).1, (pow_value hroot X o (update_self _ _ _)).2,
        ht.rest X _ j (by omega) o (update_self _ _ _)]
      ring
    | none =>
      refine ⟨shape_symbolic hN hB hh hnB ht hrs _, fun X σ N hf hs hn => ?_⟩
      dsimp only
      unfold symbolicE
      rw [sum_value hstd (f + 1) _ (fun j => r ^ (-(j : ℤ)) * d.rest j * d.base ^ j) X hn fun j h1 h2 => ?_]
      · refine Finset.sum_bij' (fun a _ => a.toNat) (fun b _ => (b : ℤ)) ?_ ?_ ?_ ?_ ?_
        · intro a ha; have := Finset.mem_Icc.mp ha; rw [Finset.mem_Icc]; omega
        · intro a ha; have := Finset.mem_Icc.mp ha; rw [Finset.mem_Icc]; omega
        · intro a ha; have := Finset.mem_Icc.mp ha; omega
        · intro a _; simp
        · intro a _; rfl
      · have o := hs.update v6 (j : K)
        have hsub : ∀ {e : Expr}, Shape B0 (fun _ => False) e →
            eval (withX I X) (update σ s.h (j : K)) (substitute (.sym s.n) (.sym s.h) e) = eval (withX I X) (update (update σ s.h (j : K)) s.n (j : K)) e := by
          intro e he
          rw [eval_subst (withX I X) b1 (fun τ u w hu => by simp only [eval]; rw [update_of_ne (by rintro rfl; exact b6 hu)]) he]
          simp only [eval, update_self]
        rw [eval_mulE, eval_mulE, (pow_value hroot X o (update_self _ _ _)).2, hsub ht.shapeR, hsub (shape_powE ht.shapeB (shape_sym _)),
          ht.rest X _ j (by omega) (o.update v1 _) (update_self _ _ _), (pow_value ht.base X (o.update v1 _) (update_self _ _ _)).1]

/-! ### The non-homogeneous part -/

theorem foldr_value {α : Type} (J : Interp K) (σ : String → K) (E : α → Expr) (F : α → K) : ∀ (l : List α), (∀ a ∈ l, eval J σ (E a) = F a) →
    eval J σ (l.foldr (fun a e => addE e (E a)) (.num 0)) = l.foldr (fun a v => v + F a) 0 := by
  intro l
  induction l with
  | nil => intro _; simp [eval]
  | cons a l ih =>
    intro h
    rw [List.foldr_cons, List.foldr_cons, eval_addE, ih fun b hb => h b (by simp [hb]), h a (by simp)]

theorem foldr_shape {α : Type} {S : ℚ → Prop} (E : α → Expr) : ∀ (l : List α), (∀ a ∈ l, Shape B S (E a)) →
    Shape B S (l.foldr (fun a e => addE e (E a)) (.num 0)) := by
  intro l
  induction l with
  | nil => intro _; exact shape_num _
  | cons a l ih =>
    intro h
    rw [List.foldr_cons]
    exact shape_addE (ih fun b hb => h b (by simp [hb])) (h a (by simp))

theorem foldr_zero {α : Type} (F : α → K) : ∀ (l : List α), (∀ a ∈ l, F a = 0) → l.foldr (fun a v => v + F a) 0 = 0 := by
  intro l
  induction l with
  | nil => intro _; rfl
  | cons a l ih => intro h; rw [List.foldr_cons, ih fun b hb => h b (by simp [hb]), h a (by simp), add_zero]

theorem returnSum_zero (distinct : Bool) (lower : ℕ) {q : K[X]} (hq : ∀ j : ℕ, q.eval (j : K) = 0) (a l : K) (N : ℕ) :
    returnSum distinct lower q a l N = 0 := by
  unfold returnSum
  have h1 : ∀ (m : List ℕ) (v : K), m.foldl (fun s (j : ℕ) => s - q.eval (j : K) * a ^ j * l ^ (-(j : ℤ))) v = v := by
    intro m
    induction m with
    | nil => intro v; rfl
    | cons j m ih => intro v; rw [List.foldl_cons, ih, hq]; simp
  dsimp only
  rw [h1, Finset.sum_eq_zero fun j _ => by rw [hq]; simp, zero_mul]

/-- The non-homogeneous part: shape and values. -/
theorem nonHom1_value [DecidableEq K] (hstd : EvalRules.StdBind I) (hN : NewSymbols s B0 V) (hB : ∀ t, B0 t → B t) (hh : B s.h) (hnB : ¬ B s.n)
    {ts : List (Expr × Expr × Expr)} {D : Expr × Expr × Expr → EPTerm K} (hts : ∀ t ∈ ts, TermOk I P s B0 B V ρ f root t (D t)) {r : K}
    (hr : r ≠ 0) (hroot : ConstV I V ρ root r) (hrs : Shape B0 (fun _ => False) root) (heq : ∀ t ∈ ts, t.1 = root ↔ (D t).base = r) :
    Shape B (fun _ => False) (nonHom1 P s f root ts) ∧ ∀ (X : K → K) (σ : String → K) (N : ℕ), f ≤ N → OffV V ρ σ → σ s.n = N →
      eval (withX I X) σ (nonHom1 P s f root ts) = solveOrder1 r f (ts.map D) N := by
  obtain ⟨⟨b1, b2, b3, b4, b5, b6⟩, ⟨v1, v2, v3, v4, v5, v6⟩, _⟩ := hN.all
  have hw : (1 + f) = f + 1 := by omega
  unfold nonHom1
  dsimp only
  rw [hw, subsSums_eq]
  set A := ts.foldr (fun t e => addE e (substitute (.sym s.lambda) root (substitute (.sym s.alpha) t.1 (entry P s root (f + 1) t)))) (.num 0) with hA
  set C := transcendentalE P s root (f + 1) ts with hC
  have sA : Shape B (fun _ => False) A := shape_le hB (foldr_shape _ _ fun t ht =>
    shape_substS b5 hrs (shape_substS b4 (hts t ht).shapeB (entry_shape (hts t ht))))
  have sC : Shape B (fun _ => False) C := foldr_shape _ _ fun t ht =>
    shape_mulE (shape_powE (shape_le hB hrs) (shape_sym _)) (gosper_value hstd hN hB hh hnB (hts t ht) hroot hrs).1
  have vA : ∀ (X : K → K) (σ : String → K) (N : ℕ), f ≤ N → OffV V ρ σ → σ s.n = N →
      eval (withX I X) σ A = (ts.map D).foldr (fun t v => v + returnSum (t.base ≠ r) (f + 1) t.poly t.base r N) 0 := by
    intro X σ N hf hs hn
    rw [hA, List.foldr_map]
    exact foldr_value _ σ _ (fun t => returnSum ((D t).base ≠ r) (f + 1) (D t).poly (D t).base r N) ts fun t ht =>
      subs_value hN (hts t ht) hr hroot (heq t ht) X hs hf hn
  have vC : ∀ (X : K → K) (σ : String → K) (N : ℕ), f ≤ N → OffV V ρ σ → σ s.n = N →
      eval (withX I X) σ C = (ts.map D).foldr (fun t v => v + r ^ N * ∑ j ∈ Finset.Icc (f + 1) N, r ^ (-(j : ℤ)) * t.rest j * t.base ^ j) 0 := by
    intro X σ N hf hs hn
    rw [hC, List.foldr_map]
    refine foldr_value _ σ _ (fun t => r ^ N * ∑ j ∈ Finset.Icc (f + 1) N, r ^ (-(j : ℤ)) * (D t).rest j * (D t).base ^ j) ts fun t ht => ?_
    rw [eval_mulE, (pow_value hroot X hs hn).1, (gosper_value hstd hN hB hh hnB (hts t ht) hroot hrs).2 X σ N hf hs hn]
  have zA : (ts.any fun t => t.2.1 ≠ .num 0) ≠ true → ∀ N, (ts.map D).foldr (fun t v => v + returnSum (t.base ≠ r) (f + 1) t.poly t.base r N) 0 = 0 := by
    intro h N
    refine foldr_zero _ _ fun a ha => ?_
    obtain ⟨t, ht, rfl⟩ := List.mem_map.mp ha
    have h0 : t.2.1 = .num 0 := by
      by_contra hne
      exact h (List.any_eq_true.mpr ⟨t, ht, by simpa using hne⟩)
    refine returnSum_zero _ _ (fun j => ?_) _ _ _
    rw [← (hts t ht).poly (fun _ => 0) (update ρ s.n (j : K)) j (offV_self.update v1 _) (update_self _ _ _), h0]
    simp [eval]
  have zC : (ts.any fun t => t.2.2 ≠ .num 0) ≠ true → ∀ N,
      (ts.map D).foldr (fun t v => v + r ^ N * ∑ j ∈ Finset.Icc (f + 1) N, r ^ (-(j : ℤ)) * t.rest j * t.base ^ j) 0 = 0 := by
    intro h N
    refine foldr_zero _ _ fun a ha => ?_
    obtain ⟨t, ht, rfl⟩ := List.mem_map.mp ha
    have h0 : t.2.2 = .num 0 := by
      by_contra hne
      exact h (List.any_eq_true.mpr ⟨t, ht, by simpa using hne⟩)
    rw [Finset.sum_eq_zero, mul_zero]
    intro j hj
    have hj' := Finset.mem_Icc.mp hj
    rw [← (hts t ht).rest (fun _ => 0) (update ρ s.n (j : K)) j (by omega) (offV_self.update v1 _) (update_self _ _ _), h0]
    simp [eval]
  unfold solveOrder1
  by_cases hp : (ts.any fun t => t.2.1 ≠ .num 0) = true
  · rw [if_pos hp]
    by_cases hq : (ts.any fun t => t.2.2 ≠ .num 0) = true
    · rw [if_pos hq]
      exact ⟨shape_addE sA sC, fun X σ N hf hs hn => by rw [eval_addE, vA X σ N hf hs hn, vC X σ N hf hs hn]⟩
    · rw [if_neg hq]
      exact ⟨sA, fun X σ N hf hs hn => by rw [zC hq, vA X σ N hf hs hn, add_zero]⟩
  · rw [if_neg hp]
    by_cases hq : (ts.any fun t => t.2.2 ≠ .num 0) = true
    · rw [if_pos hq]
      exact ⟨shape_addE (shape_num _) sC, fun X σ N hf hs hn => by rw [eval_addE, vC X σ N hf hs hn, zA hp]; simp [eval]⟩
    · rw [if_neg hq]
      exact ⟨shape_num _, fun X σ N hf hs hn => by rw [zA hp, zC hq]; simp [eval]⟩

/-! ### The theorem -/

/-- **C161** (order 1).  When the inhomogeneous term is not a sum of polynomials times exponentials, the answer of the linear solver for order 1 with a
constant coefficient solves the recurrence; in it `x` occurs only as `x(f)`. -/
theorem C161_old_method_order1 [DecidableEq K] {O : Ops} (hstd : EvalRules.StdBind I) (hN : NewSymbols s B0 V) (hB : ∀ t, B0 t → B t) (hh : B s.h)
    (hnB : ¬ B s.n) {rhs inhom a1 : Expr} {r : K} {p : ℕ → K} (hr : r ≠ 0)
    (hlin : ∀ (X : K → K) (N : ℕ), f + 1 ≤ N → eval (withX I X) (update ρ s.n (N : K)) rhs = r * X ((N - 1 : ℕ) : K) + p N)
    (hp : ∀ (X : K → K) (N : ℕ), f ≤ N → eval (withX I X) (update ρ s.n (N : K)) inhom = p N) (hps : Shape B0 (fun _ => False) inhom)
    (hroot : ConstV I V ρ root r) (hrs : Shape B0 (fun _ => False) root) (ha1 : ConstV I V ρ a1 r) (has : Shape B0 (fun _ => False) a1)
    {D : Expr × Expr × Expr → EPTerm K} (hts : ∀ t ∈ decomposition O s.n inhom, TermOk I P s B0 B V ρ f root t (D t))
    (heq : ∀ t ∈ decomposition O s.n inhom, t.1 = root ↔ (D t).base = r)
    (hexp : Keeps I s.n (fun _ => False) ρ f B0 O.expand) (hep : Keeps I s.n (fun _ => False) ρ f B0 O.epSimp)
    (hsimp : Keeps I s.n (fun _ => False) ρ f B O.simp) (hne : ∃ t ∈ decomposition O s.n inhom, t.2.2 ≠ .num 0)
    {roots : List (Expr × ℕ)} {e : Expr} (hsol : solveLinear O s.n rhs inhom f 1 true a1 (some roots) (some (oldOne P s O f a1 root inhom)) = some e) :
    Shape B (ICs f 1) e ∧ IsSolution I s.n rhs ρ e f 1 := by
  obtain ⟨⟨b1, b2, b3, b4, b5, b6⟩, ⟨v1, v2, v3, v4, v5, v6⟩, _⟩ := hN.all
  rw [solveLinear, if_neg (by omega), if_pos rfl, Option.bind_some, solveConst] at hsol
  rw [if_pos (by simpa using hne), Option.some.injEq] at hsol
  subst hsol
  obtain ⟨q1, q2⟩ := nonHom1_value hstd hN hB hh hnB hts hr hroot hrs heq
  have up : ∀ {e : Expr}, Shape B (fun _ => False) e → Shape B (ICs f 1) e := fun h1 => shape_mono (fun _ h2 => h2.elim) h1
  constructor
  · unfold oldOne
    refine shape_addE (shape_mulE ?_ (shape_powE (up (shape_le hB has)) (shape_subE (shape_sym _) (shape_num _)))) (up (hsimp.shape _ q1))
    simpa using shape_xAt (f := f) (k := 1) B (i := 0) (by omega)
  intro X hX N hf
  have hs : OffV V ρ (update ρ s.n (N : K)) := offV_self.update v1 _
  have hag : Agrees s.n (fun _ => False) ρ (update ρ s.n (N : K)) N := agrees_self s.n _ ρ N
  have hpow : eval (withX I X) (update ρ s.n (N : K)) (powE a1 (subE (.sym s.n) (.num f))) = r ^ ((N : ℤ) - ((f : ℤ) - 1 + 1)) := by
    rw [eval_powE, ha1.eval X hs, eval_subE]
    simp only [eval, update_self]
    rw [show ((N : K) - ((f : ℚ) : K)) = (((N : ℤ) - ((f : ℤ) - 1 + 1) : ℤ) : K) by push_cast; ring, (withX I X).pw_int]
  unfold oldOne
  rw [eval_addE, eval_mulE, eval_xAt, hpow, hsimp.val _ (shape_hasX q1) (shape_idx hnB q1) X _ N hf hag, q2 X _ N hf hs (update_self _ _ _)]
  have hpv : ∀ M, f ≤ M → p M = epSum ((decomposition O s.n inhom).map D) M := by
    intro M hM
    have hx := shape_hasX hps
    have hi := shape_idx b1 hps
    have hσ := agrees_self s.n (fun _ => False) ρ M
    have o : OffV V ρ (update ρ s.n (M : K)) := offV_self.update v1 _
    have e1 : eval (withX I fun _ => 0) (update ρ s.n (M : K)) (O.epSimp (O.expand inhom)) = p M := by
      rw [hep.val _ (hexp.noX _ hx hi) (hexp.idx _ hx hi) _ _ M hM hσ, hexp.val _ hx hi _ _ M hM hσ, hp _ M hM]
    rw [← e1, ← (C13_decomposition (withX I fun _ => 0) s.n (O.epSimp (O.expand inhom))).2]
    unfold epValue epSum
    rw [List.map_map]
    refine congrArg List.sum (List.map_congr_left fun t htm => ?_)
    simp only [Function.comp]
    rw [(hts t htm).base.eval _ o, (hts t htm).poly _ _ M o (update_self _ _ _), (hts t htm).rest _ _ M hM o (update_self _ _ _), update_self, pw_nat]
    ring
  have hx : ∀ M, f ≤ M → X ((M + 1 : ℕ) : K) = r * X (M : K) + epSum ((decomposition O s.n inhom).map D) (M + 1) := by
    intro M hM
    rw [hX (M + 1) (by omega), hlin X (M + 1) (by omega), hpv (M + 1) (by omega), Nat.add_sub_cancel]
  have := Exact.C31_old_method_order1 r hr f ((decomposition O s.n inhom).map D) (fun M => X (M : K)) hx N hf
  rw [oldSolution1] at this
  exact this

end

end Purrs.OldMethod
