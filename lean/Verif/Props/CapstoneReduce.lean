import Verif.Props.CapstoneExact
import Verif.Props.SolveLinear
import Verif.Props.OrderRedExp

/-!
# Recurrences whose decrements have a common divisor: from the right-hand side to the solution (C149)

The classification (C36), the reduction of the order (C30) and the solver of linear recurrences with constant coefficients (C145) put
together.
-/

set_option linter.unusedSectionVars false

namespace Purrs.CapstoneReduce

open Function (update update_of_ne update_self)
open OrderRed (withX eval_noX SolvesAt IsSolution SolOk RhsOk TermOk FactorOk rewriteFactor rewriteTerm writeReduced residue comeBack modE)
open Classify (St classify Steps Piece)
open OnIC (Shape)
open SolveLin (Agrees Denotes Unknown OpsOk RecIs TermIs TermSolved RootsAre ICs solveLinear decomposition multOf)
open Polynomial Purrs.Exact

/-! ### The inhomogeneous term of the reduced recurrence -/

/-- In every `x(a)` the argument contains `n`. -/
def AllX (n : String) : Expr → Prop
  | .add l => ∀ a ∈ l, AllX n a
  | .mul l => ∀ a ∈ l, AllX n a
  | .pow b e => AllX n b ∧ AllX n e
  | .fn f l => (f = .x → ∃ a t, l = a :: t ∧ has (.sym n) a = true) ∧ (f ≠ .x → ∀ a ∈ l, AllX n a)
  | .binder _ i a b c => AllX n i ∧ AllX n a ∧ AllX n b ∧ AllX n c
  | _ => True

theorem allX_mulE {n : String} {a b : Expr} (ha : AllX n a) (hb : AllX n b) : AllX n (mulE a b) := by
  cases a <;> cases b <;> simp only [mulE] <;> (try split) <;> (try split) <;> simp_all [AllX, or_imp]

theorem allX_addE {n : String} {a b : Expr} (ha : AllX n a) (hb : AllX n b) : AllX n (addE a b) := by
  cases a <;> cases b <;> simp only [addE] <;> (try split) <;> simp_all [AllX, or_imp]

theorem allX_powE {n : String} {a b : Expr} (ha : AllX n a) (hb : AllX n b) : AllX n (powE a b) := by
  cases a <;> cases b <;> simp only [powE] <;> (try split) <;> (try split) <;> simp_all [AllX]

theorem allX_of_noX {n : String} {e : Expr} (h : hasX e = false) : AllX n e := by
  induction e using Expr.ind with
  | num q => simp [AllX]
  | const q => simp [AllX]
  | sym s => simp [AllX]
  | add l ih => simp [hasX] at h; simp only [AllX]; exact fun a ha => ih a ha (h a ha)
  | mul l ih => simp [hasX] at h; simp only [AllX]; exact fun a ha => ih a ha (h a ha)
  | pow b e hb he => simp [hasX] at h; exact (by rw [AllX]; exact ⟨hb h.1, he h.2⟩)
  | fn f l ih =>
    rw [AllX]
    simp only [hasX] at h
    refine ⟨fun hf => ?_, fun hf a ha => ?_⟩
    · rw [if_pos hf] at h; cases h
    · rw [if_neg hf] at h
      simp at h
      exact ih a ha (h a ha)
  | binder k i a b c hi ha hb hc => simp [hasX] at h; rw [AllX]; exact ⟨hi h.1.1.1, ha h.1.1.2, hb h.1.2, hc h.2⟩

theorem noX_of_allX {n : String} {e : Expr} (h : AllX n e) (hx : hasXOf (.sym n) e = false) : hasX e = false := by
  induction e using Expr.ind with
  | num q => simp [hasX]
  | const q => simp [hasX]
  | sym s => simp [hasX]
  | add l ih => simp only [AllX] at h; simp [hasXOf] at hx; simp [hasX]; exact fun a ha => ih a ha (h a ha) (hx a ha)
  | mul l ih => simp only [AllX] at h; simp [hasXOf] at hx; simp [hasX]; exact fun a ha => ih a ha (h a ha) (hx a ha)
  | pow b e hb he => simp only [AllX] at h; simp [hasXOf] at hx; simp [hasX, hb h.1 hx.1, he h.2 hx.2]
  | fn f l ih =>
    rw [AllX] at h
    by_cases hf : f = .x
    · obtain ⟨a, t, rfl, ha⟩ := h.1 hf
      simp [hasXOf, hf, ha] at hx
    · have h2 := h.2 hf
      rw [hasXOf.eq_def] at hx
      simp [hf] at hx
      simp [hasX, hf]
      exact fun a ha => ih a ha (h2 a ha) (hx a ha)
  | binder k i a b c hi ha hb hc =>
    simp only [AllX] at h
    simp [hasXOf] at hx
    simp [hasX, hi h.1 hx.1.1.1, ha h.2.1 hx.1.1.2, hb h.2.2.1 hx.1.2, hc h.2.2.2 hx.2]

theorem xOf_of_noX {y e : Expr} (h : hasX e = false) : hasXOf y e = false := by
  induction e using Expr.ind with
  | num q => simp [hasXOf]
  | const q => simp [hasXOf]
  | sym s => simp [hasXOf]
  | add l ih => simp [hasX] at h; simp [hasXOf]; exact fun a ha => ih a ha (h a ha)
  | mul l ih => simp [hasX] at h; simp [hasXOf]; exact fun a ha => ih a ha (h a ha)
  | pow b e hb he => simp [hasX] at h; simp [hasXOf, hb h.1, he h.2]
  | fn f l ih =>
    by_cases hf : f = .x
    · simp [hasX, hf] at h
    · simp [hasX, hf] at h
      rw [hasXOf.eq_def]
      simp [hf]
      exact fun a ha => ih a ha (h a ha)
  | binder k i a b c hi ha hb hc => simp [hasX] at h; simp [hasXOf, hi h.1.1.1, ha h.1.1.2, hb h.1.2, hc h.2]

theorem has_n (n : String) (q : ℚ) : has (.sym n) (addE (.sym n) (.num q)) = true := by
  simp only [addE]
  split <;> simp [has]

theorem allX_rewriteFactor {n r : String} (g : ℕ) {e : Expr} (h : FactorOk n r e) : AllX n (rewriteFactor n r g e) := by
  induction h with
  | num q => simp [rewriteFactor, AllX]
  | const c => simp [rewriteFactor, AllX]
  | sym s hs =>
    simp only [rewriteFactor]
    split
    · exact allX_addE (allX_mulE (by simp [AllX]) (by simp [AllX])) (by simp [AllX])
    · simp [AllX]
  | add l hl => simp only [rewriteFactor]; exact allX_of_noX hl.2.2
  | mul l hl => simp only [rewriteFactor]; exact allX_of_noX hl.2.2
  | pow _ _ hb he => rw [rewriteFactor]; exact allX_powE hb he
  | x1 q => simp [rewriteFactor, AllX, has_n]
  | x2 q => simp [rewriteFactor, AllX, has_n]
  | @fn f l hf _ ih =>
    simp only [rewriteFactor, if_neg hf, AllX]
    refine ⟨fun h => absurd h hf, fun _ a ha => ?_⟩
    obtain ⟨b, hb, rfl⟩ := List.mem_map.mp ha
    exact ih b hb
  | @binder k s a b c h1 h2 _ _ _ ha hb hc =>
    simp only [rewriteFactor, if_neg h1, AllX]
    exact ⟨trivial, ha, hb, hc⟩

theorem allX_rewriteTerm {n r : String} (g : ℕ) {e : Expr} (h : TermOk n r e) : AllX n (rewriteTerm n r g e) := by
  cases e with
  | mul l =>
    obtain ⟨h1, h2⟩ := h
    simp only [rewriteTerm, if_pos h1]
    clear h1
    induction l with
    | nil => simp [AllX]
    | cons a l ih =>
      rw [List.foldr_cons]
      exact allX_mulE (ih fun b hb => h2 b (by simp [hb])) (allX_rewriteFactor g (h2 a (by simp)))
  | _ => exact allX_rewriteFactor g h

theorem noX_rewriteFactor {n r : String} (g : ℕ) {e : Expr} (h : hasX e = false) : hasX (rewriteFactor n r g e) = false := by
  induction e using Expr.ind with
  | num q => simp [rewriteFactor, hasX]
  | const q => simp [rewriteFactor, hasX]
  | sym s =>
    simp only [rewriteFactor]
    split
    · exact WeightedAvg.hasX_addE (WeightedAvg.hasX_mulE (by simp [hasX]) (by simp [hasX])) (by simp [hasX])
    · simp [hasX]
  | add l ih => simpa [rewriteFactor] using h
  | mul l ih => simpa [rewriteFactor] using h
  | pow b e hb he => simp [hasX] at h; rw [rewriteFactor]; exact WeightedAvg.hasX_powE (hb h.1) (he h.2)
  | fn f l ih =>
    by_cases hf : f = .x
    · simp [hasX, hf] at h
    · simp [hasX, hf] at h
      simp [rewriteFactor, hf, hasX]
      exact fun a ha => ih a ha (h a ha)
  | binder k i a b c hi ha hb hc => simp [hasX] at h; simp [rewriteFactor, hasX, hi h.1.1.1, ha h.1.1.2, hb h.1.2, hc h.2]

theorem noX_rewriteTerm {n r : String} (g : ℕ) {e : Expr} (h : hasX e = false) : hasX (rewriteTerm n r g e) = false := by
  cases e with
  | mul l =>
    simp only [rewriteTerm]
    split
    · simp [hasX] at h
      rename_i h1
      clear h1
      induction l with
      | nil => simp [hasX]
      | cons a l ih =>
        rw [List.foldr_cons]
        exact WeightedAvg.hasX_mulE (ih fun b hb => h b (by simp [hb])) (noX_rewriteFactor g (h a (by simp)))
    · exact noX_rewriteFactor g h
  | _ => exact noX_rewriteFactor g h

section
variable {K : Type} [Field K] [CharZero K] {I : Interp K}

/-- One addend of the right-hand side: what it contributes to the inhomogeneous term of the reduced recurrence has the value of the addend
when `x` is 0. -/
theorem contribution {n r : String} (hnr : n ≠ r) {g : ℕ} (hg : g ≠ 0) (m t : K) {a : Expr} (h : TermOk n r a)
    (hx : hasX a = false ∨ ∀ (ρ : String → K) (v : K), eval (withX I fun _ => 0) (update ρ n v) a = 0) (Z : K → K) (ρ : String → K) :
    (if hasXOf (.sym n) (rewriteTerm n r g a) then 0 else eval (withX I Z) (update (update ρ n t) r m) (rewriteTerm n r g a))
      = eval (withX I fun _ => 0) (update ρ n (g * t + m)) a := by
  have hr := OrderRed.rewriteTerm_spec I hnr g hg (fun _ => 0) m t h ρ
  have h0 : residue (fun _ : K => (0 : K)) g m = fun _ => 0 := rfl
  rw [h0] at hr
  by_cases hs : hasXOf (.sym n) (rewriteTerm n r g a) = true
  · rw [if_pos hs]
    rcases hx with hx | hx
    · rw [xOf_of_noX (noX_rewriteTerm g hx)] at hs
      cases hs
    · exact (hx _ _).symm
  · rw [if_neg hs, ← hr]
    exact eval_noX I _ _ _ (noX_of_allX (allX_rewriteTerm g h) (by simpa using hs)) _

/-- The inhomogeneous term of the reduced recurrence has, at `t`, the value that the original right-hand side has at `g t + m` when `x` is 0. -/
theorem inhom_val {n r : String} (hnr : n ≠ r) {g : ℕ} (hg : g ≠ 0) (m t : K) {e : Expr} (h : RhsOk n r e)
    (hx : ∀ a ∈ addends e, hasX a = false ∨ ∀ (ρ : String → K) (v : K), eval (withX I fun _ => 0) (update ρ n v) a = 0) (Z : K → K)
    (ρ : String → K) :
    eval (withX I Z) (update (update ρ n t) r m) (writeReduced n r g e).2 = eval (withX I fun _ => 0) (update ρ n (g * t + m)) e := by
  have step : ∀ (a : Expr) (acc : Expr), eval (withX I Z) (update (update ρ n t) r m)
      (if hasXOf (.sym n) (rewriteTerm n r g a) then acc else addE acc (rewriteTerm n r g a))
      = eval (withX I Z) (update (update ρ n t) r m) acc +
        (if hasXOf (.sym n) (rewriteTerm n r g a) then 0 else eval (withX I Z) (update (update ρ n t) r m) (rewriteTerm n r g a)) := by
    intro a acc
    split_ifs
    · rw [add_zero]
    · rw [eval_addE]
  have one : ∀ e, TermOk n r e → (hasX e = false ∨ ∀ (ρ : String → K) (v : K), eval (withX I fun _ => 0) (update ρ n v) e = 0) →
      eval (withX I Z) (update (update ρ n t) r m) (if hasXOf (.sym n) (rewriteTerm n r g e) then .num 0 else addE (.num 0) (rewriteTerm n r g e))
        = eval (withX I fun _ => 0) (update ρ n (g * t + m)) e := by
    intro e he hx
    rw [step, contribution hnr hg m t he hx]
    simp [eval]
  cases e with
  | add l =>
    obtain ⟨h1, h2⟩ := h
    simp only [writeReduced]
    rw [if_pos h1]
    have hx' : ∀ a ∈ l, hasX a = false ∨ ∀ (ρ : String → K) (v : K), eval (withX I fun _ => 0) (update ρ n v) a = 0 := hx
    have key : ∀ l : List Expr, (∀ a ∈ l, TermOk n r a) →
        (∀ a ∈ l, hasX a = false ∨ ∀ (ρ : String → K) (v : K), eval (withX I fun _ => 0) (update ρ n v) a = 0) →
        eval (withX I Z) (update (update ρ n t) r m)
          (l.foldr (fun a (st : Expr × Expr) => (addE st.1 (rewriteTerm n r g a),
            if hasXOf (.sym n) (rewriteTerm n r g a) then st.2 else addE st.2 (rewriteTerm n r g a))) (.num 0, .num 0)).2
        = (l.map fun a => eval (withX I fun _ => 0) (update ρ n (g * t + m)) a).sum := by
      intro l
      induction l with
      | nil => intro _ _; simp [eval]
      | cons a l ih =>
        intro h3 h4
        rw [List.foldr_cons]
        simp only
        rw [step, ih (fun b hb => h3 b (by simp [hb])) (fun b hb => h4 b (by simp [hb])), contribution hnr hg m t (h3 a (by simp)) (h4 a (by simp)),
          List.map_cons, List.sum_cons, add_comm]
    rw [key l h2 hx']
    simp [eval]
  | _ => exact one _ h (hx _ (by simp [addends]))

/-! ### The reduced recurrence -/

theorem steps_other (J : Interp K) (ρ : String → K) {n : String} {k : ℕ} {as : List Expr} {st st' : St} (h : Steps n k as st st') {j : ℕ}
    (hd : (j : ℚ) ∉ as.flatMap fun a => (factors a).filterMap (Classify.xDecr n))
    (h0 : eval J ρ (st.coeffs.getD j (.num 0)) = 0) : eval J ρ (st'.coeffs.getD j (.num 0)) = 0 := by
  induction h with
  | nil => exact h0
  | @cons k a as st st1 st2 p hty hk hp ha hs ih =>
    rw [List.flatMap_cons, hp.decs, List.mem_append, not_or] at hd
    apply ih hd.2
    cases p with
    | dec i c =>
      obtain ⟨-, rfl⟩ := ha
      have hi : i ≠ j := by
        rintro rfl
        exact hd.1 (by simp [Piece.decs])
      simp only
      rw [Classify.getD_insertCoeff, h0, if_neg hi, add_zero]
    | div d c => obtain ⟨-, rfl⟩ := ha; exact h0
    | inh e =>
      have ha : st1 = Classify.addInhom e st := ha
      subst ha; exact h0

/-- A sum over the multiples of `g`. -/
theorem sum_multiples {g : ℕ} (hg : 0 < g) (F : ℕ → K) (q : ℕ) (h : ∀ i, ¬ g ∣ i + 1 → F i = 0) :
    ∑ i ∈ Finset.range (g * q), F i = ∑ j ∈ Finset.range q, F (g * (j + 1) - 1) := by
  induction q with
  | zero => simp
  | succ q ih =>
    have hin : ∑ i ∈ Finset.range g, F (g * q + i) = F (g * (q + 1) - 1) := by
      rw [Finset.sum_eq_single (g - 1)]
      · congr 1
        rw [Nat.mul_succ]
        omega
      · intro i hi hne
        rw [Finset.mem_range] at hi
        refine h _ ?_
        rw [add_assoc, Nat.dvd_add_right (Dvd.intro _ rfl)]
        intro hd
        have := Nat.le_of_dvd (by omega) hd
        omega
      · intro hn
        exact absurd (Finset.mem_range.mpr (by omega)) hn
    rw [Nat.mul_succ, Finset.sum_range_add, ih, hin, Finset.sum_range_succ]

/-- The right-hand side is classified as linear with the constant coefficients `co 1, …, co k` (rational numbers), the last one not
zero; the greatest common divisor of the decrements is `g`, which divides the order `g * q`; `x` occurs only as `x(n - d)` in a
product, and the rewriting of the order reduction handles all the addends. -/
structure IsReducible (n r : String) (ms : ℕ) (e : Expr) (st : St) (co : List ℚ) (g q : ℕ) : Prop where
  ok : classify n ms e = .ok st
  ty : st.ty = .linConst
  coeffs : st.coeffs = co.map Expr.num
  last : co.getD st.order 0 ≠ 0
  nonzero : (0 : ℚ) ∉ Classify.decrements n e
  gcd : st.gcdDec = g
  order : st.order = g * q
  noX : ∀ a ∈ addends e, hasX a = false ∨ (factors a).filterMap (Classify.xDecr n) ≠ []
  rhs : RhsOk n r e

/-- The value of an addend with an `x(n - d)`, when `x` is 0. -/
theorem steps_zero_val {n : String} {k : ℕ} {as : List Expr} {st st' : St} (h : Steps n k as st st') :
    ∀ a ∈ as, (factors a).filterMap (Classify.xDecr n) ≠ [] →
      ∀ (ρ : String → K) (v : K), eval (withX I fun _ => 0) (update ρ n v) a = 0 := by
  induction h with
  | nil => simp
  | @cons k a as st st1 st2 p hty hk hp ha hs ih =>
    intro b hb hne ρ v
    rcases List.mem_cons.mp hb with rfl | hb
    · rw [hp.decs] at hne
      rw [hp.means K I]
      cases p with
      | dec i c => simp [Piece.val]
      | div d c => exact absurd rfl hne
      | inh e => exact absurd rfl hne
    · exact ih b hb hne ρ v

variable {n r : String} {ms g q : ℕ} {e : Expr} {st : St} {co : List ℚ}

theorem IsReducible.pos (hL : IsReducible n r ms e st co g q) : 0 < g ∧ 1 ≤ q := by
  have ho := (CapstoneExact.linear_value (I := (ratInterp : Interp ℚ)) hL.ok (Or.inl hL.ty) hL.nonzero).1
  rw [hL.order] at ho
  exact ⟨Nat.pos_of_ne_zero (by rintro rfl; simp at ho), Nat.pos_of_ne_zero (by rintro rfl; simp at ho)⟩

theorem coeff_val (h : st.coeffs = co.map Expr.num) (J : Interp K) (σ : String → K) (i : ℕ) :
    eval J σ (st.coeffs.getD i (.num 0)) = ((co.getD i 0 : ℚ) : K) := by
  rw [h, show (Expr.num 0) = Expr.num ((0 : ℚ)) from rfl, List.getD_map]
  simp [eval]

theorem IsReducible.other (hL : IsReducible n r ms e st co g q) {j : ℕ} (hj : ¬ g ∣ j) : co.getD j 0 = 0 := by
  have h1 : (j : ℚ) ∉ Classify.decrements n e := by
    intro hd
    obtain ⟨i, hi, hdvd⟩ := (Classify.C36_gcd hL.ok st.gcdDec).mp dvd_rfl _ hd
    rw [hL.gcd, show i = j by exact_mod_cast hi.symm] at hdvd
    exact hj hdvd
  have h2 := steps_other (K := ℚ) ratInterp (fun _ => 0) (Classify.classify_steps hL.ok) (j := j) h1 (by simp [Classify.initSt, eval])
  rw [coeff_val hL.coeffs] at h2
  simpa using h2

/-- The reduced recurrence, for the residue class `m`, is linear with the coefficients `co g, co (2 g), …`; its inhomogeneous term at `t` is
the original one at `g t + m`. -/
theorem reduced_recIs (hL : IsReducible n r ms e st co g q) (hnr : n ≠ r) {OL : SolveLin.Ops} (hrU : ¬ Unknown OL r) {B : String → Prop}
    {ρ : String → K} {f : ℕ} {p : ℕ → K} (hp : Denotes I n (fun t => Unknown OL t ∨ t = r) ρ f st.inhom p) {m : ℕ}
    (hsh : Shape B (fun _ => False) (writeReduced n r g e).2)
    (hauto : ∀ (X : K → K) (σ : String → K) (N : ℕ), f + q ≤ N → Agrees n (Unknown OL) (update ρ r (m : K)) σ N →
      eval (withX I X) σ (OL.auto (subE (writeReduced n r g e).1 (writeReduced n r g e).2)) =
        eval (withX I X) σ (subE (writeReduced n r g e).1 (writeReduced n r g e).2))
    (hout : Verify.xOut n (List.range' 1 q) (OL.auto (subE (writeReduced n r g e).1 (writeReduced n r g e).2)) = true) :
    RecIs I OL n B (update ρ r (m : K)) f q (writeReduced n r g e).1 (writeReduced n r g e).2
      (fun i => ((co.getD (g * i) 0 : ℚ) : K)) (fun N => p (g * N + m)) := by
  obtain ⟨hg, hq⟩ := hL.pos
  have hgK : (g : K) ≠ 0 := by exact_mod_cast hg.ne'
  obtain ⟨-, -, hval⟩ := CapstoneExact.linear_value (I := I) hL.ok (Or.inl hL.ty) hL.nonzero
  have hσr : ∀ {σ : String → K} {N : ℕ}, Agrees n (Unknown OL) (update ρ r (m : K)) σ N →
      update (update σ n (N : K)) r (m : K) = σ ∧ Agrees n (fun t => Unknown OL t ∨ t = r) ρ (update σ n ((g * N + m : ℕ) : K)) (g * N + m) := by
    intro σ N hσ
    constructor
    · funext t
      by_cases h1 : t = r
      · subst h1; rw [update_self, hσ.2 t hnr.symm hrU, update_self]
      · rw [update_of_ne h1]
        by_cases h2 : t = n
        · subst h2; rw [update_self, hσ.1]
        · rw [update_of_ne h2]
    · refine ⟨by simp, fun t h1 h2 => ?_⟩
      push Not at h2
      rw [update_of_ne h1, hσ.2 t h1 h2.1, update_of_ne h2.2]
  constructor
  · intro Z σ N hN hσ
    obtain ⟨s1, s2⟩ := hσr hσ
    have hZ : residue (fun v => Z ((v - m) / g)) g (m : K) = Z := by
      funext t
      simp only [residue]
      congr 1
      field_simp
      ring
    have h1 := OrderRed.C30_reduced_rhs_partial I hnr g hg.ne' (fun v => Z ((v - m) / g)) (m : K) (N : K) hL.rhs σ
    rw [hZ, s1] at h1
    rw [h1, hval]
    have e1 : ((g : K) * N + m) = ((g * N + m : ℕ) : K) := by push_cast; rfl
    rw [e1, hp _ _ _ (by nlinarith) s2]
    congr 1
    rw [hL.order, sum_multiples hg _ q]
    · refine Finset.sum_congr rfl fun j hj => ?_
      rw [Finset.mem_range] at hj
      have e2 : g * (j + 1) - 1 + 1 = g * (j + 1) := Nat.sub_add_cancel (Nat.mul_pos hg (by omega))
      rw [e2, coeff_val hL.coeffs]
      have e3 : ((g * (j + 1) - 1 : ℕ) : K) + 1 = (g : K) * ((j : K) + 1) := by
        rw [← Nat.cast_succ, Nat.succ_eq_add_one, e2]; push_cast; rfl
      have e4 : ((N - (j + 1) : ℕ) : K) = (N : K) - ((j : K) + 1) := by
        rw [Nat.cast_sub (by omega)]; push_cast; rfl
      rw [e3, e4]
      congr 2
      push_cast
      field_simp
      ring
    · intro i hi
      rw [coeff_val hL.coeffs, hL.other hi]
      simp
  · intro X σ N hN hσ
    obtain ⟨s1, s2⟩ := hσr hσ
    have h1 := inhom_val (I := I) hnr hg.ne' (m : K) (N : K) hL.rhs (fun a ha => (hL.noX a ha).imp id fun h => steps_zero_val (Classify.classify_steps hL.ok) a ha h)
      X σ
    rw [s1] at h1
    rw [h1, hval]
    have e1 : ((g : K) * N + m) = ((g * N + m : ℕ) : K) := by push_cast; rfl
    rw [e1, hp _ _ _ (by nlinarith) s2]
    simp
  · exact hsh
  · exact hauto
  · exact hout

/-- The right-hand side is classified as linear with the constant coefficients `co 1, …, co k` (rational numbers), the last one not
zero; the greatest common divisor of the decrements is `g ≥ 2`; `x` occurs only as `x(n - d)` in a product, and the rewriting of the order
reduction handles all the addends (see C30). -/
structure Reducible (n r : String) (ms : ℕ) (e : Expr) (st : St) (co : List ℚ) (g : ℕ) : Prop where
  ok : classify n ms e = .ok st
  ty : st.ty = .linConst
  coeffs : st.coeffs = co.map Expr.num
  last : co.getD st.order 0 ≠ 0
  nonzero : (0 : ℚ) ∉ Classify.decrements n e
  gcd : st.gcdDec = g
  two : 2 ≤ g
  noX : ∀ a ∈ addends e, hasX a = false ∨ (factors a).filterMap (Classify.xDecr n) ≠ []
  rhs : RhsOk n r e

/-- The order of the reduced recurrence (src/Recurrence.cc:426, 434) is the order divided by `g`. -/
theorem Reducible.toIs (h : Reducible n r ms e st co g) : IsReducible n r ms e st co g (co.length / g) ∧ co.length = st.order + 1 := by
  obtain ⟨ho, hlen, -⟩ := CapstoneExact.linear_value (I := (ratInterp : Interp ℚ)) h.ok (Or.inl h.ty) h.nonzero
  rw [h.coeffs, List.length_map] at hlen
  refine ⟨⟨h.ok, h.ty, h.coeffs, h.last, h.nonzero, h.gcd, ?_, h.noX, h.rhs⟩, hlen⟩
  have hmem := (Classify.C36_order h.ok).2.1.resolve_left (by omega)
  obtain ⟨j, hj, hd⟩ := (Classify.C36_gcd h.ok st.gcdDec).mp dvd_rfl _ hmem
  rw [h.gcd, show j = st.order by exact_mod_cast hj.symm] at hd
  obtain ⟨q, hq⟩ := hd
  have h2 := h.two
  rw [hlen, hq, Nat.mul_add_div (by omega), Nat.div_eq_of_lt (by omega), add_zero]

/-- What is assumed of the operations that have no model here (GiNaC, the simplifications, the search of the roots) for the reduced
recurrence; `p` are the values of the original inhomogeneous term, `r` is a new symbol that stands for `mod(n, g)`. -/
structure Assumed (I : Interp K) (OL : SolveLin.Ops) (n r : String) (B : String → Prop) (ρ : String → K) (e : Expr) (st : St) (co : List ℚ)
    (g f : ℕ) (roots : List (Expr × ℕ)) (p : ℕ → K) (rv : Expr → K) (b : ℕ → Expr × Expr × Expr → K)
    (P : ℕ → Expr × Expr × Expr → K[X]) : Prop where
  ne : n ≠ r
  new : ¬ Unknown OL r
  notB : ¬ B r
  mod : ∀ N : ℕ, I.fn .mod [(N : K), (g : K)] = ((N % g : ℕ) : K)
  ops : ∀ m < g, OpsOk I OL n B (update ρ r (m : K)) f (co.length / g)
  inhom : Denotes I n (fun t => Unknown OL t ∨ t = r) ρ f st.inhom p
  shape : Shape B (fun _ => False) (writeReduced n r g e).2
  auto : ∀ m < g, ∀ (X : K → K) (σ : String → K) (N : ℕ), f + co.length / g ≤ N → Agrees n (Unknown OL) (update ρ r (m : K)) σ N →
    eval (withX I X) σ (OL.auto (subE (writeReduced n r g e).1 (writeReduced n r g e).2)) =
      eval (withX I X) σ (subE (writeReduced n r g e).1 (writeReduced n r g e).2)
  out : Verify.xOut n (List.range' 1 (co.length / g)) (OL.auto (subE (writeReduced n r g e).1 (writeReduced n r g e).2)) = true
  rootsOk : ∀ m < g, RootsAre I OL n B (update ρ r (m : K)) f (co.length / g) (fun i => ((co.getD (g * i) 0 : ℚ) : K)) roots rv
  terms : ∀ m < g, ∀ t ∈ decomposition OL n (writeReduced n r g e).2, TermIs I OL n B (update ρ r (m : K)) f t (b m t) (P m t)
  bases : ∀ m < g, ∀ t ∈ decomposition OL n (writeReduced n r g e).2, ∀ s ∈ roots, OL.rw s.1 = t.1 ↔ rv s.1 = b m t
  solved : ∀ m < g, ∀ t ∈ decomposition OL n (writeReduced n r g e).2, TermSolved I OL n B (update ρ r (m : K)) f (co.length / g)
    (OL.auto (subE (writeReduced n r g e).1 (writeReduced n r g e).2)) (multOf OL roots t.1) t (P m t)
  noRest : ∀ t ∈ decomposition OL n (writeReduced n r g e).2, t.2.2 = .num 0

theorem solOk_of_shape {n r : String} {B : String → Prop} {S : ℚ → Prop} (hn : ¬ B n) (hr : ¬ B r) {e : Expr} (h : Shape B S e) :
    SolOk n r e := by
  induction e using Expr.ind with
  | num q => exact .num q
  | const q => exact .const q
  | sym s => exact .sym s
  | add l ih => simp only [Shape] at h; exact .add fun a ha => ih a ha (h a ha)
  | mul l ih => simp only [Shape] at h; exact .mul fun a ha => ih a ha (h a ha)
  | pow b e hb he => simp only [Shape] at h; exact .pow (hb h.1) (he h.2)
  | fn f l ih =>
    rw [Shape] at h
    by_cases hf : f = .x
    · obtain ⟨q, rfl, -⟩ := h.1 hf
      rw [hf]
      exact .x q
    · exact .fn hf fun a ha => ih a ha (h.2 a ha)
  | binder k i a b c hi ha hb hc =>
    simp only [Shape] at h
    obtain ⟨⟨t, rfl, ht⟩, h1, h2, h3⟩ := h
    exact .binder (fun e => hn (e ▸ ht)) (fun e => hr (e ▸ ht)) (ha h1) (hb h2) (hc h3)

variable {OL : SolveLin.Ops} {B : String → Prop} {ρ : String → K} {f : ℕ} {roots : List (Expr × ℕ)} {old : Option Expr} {p : ℕ → K}
  {rv : Expr → K} {b : ℕ → Expr × Expr × Expr → K} {P : ℕ → Expr × Expr × Expr → K[X]}

/-- **C149.**  The user writes `x(n) = e`; it is classified as linear with constant coefficients and the decrements have the greatest common
divisor `g ≥ 2`.  If the solver, called on the recurrence of reduced order, returns `x`, then what is obtained by coming back to the
original variable has, from `g f` on (`f` being the first valid index), the values of every sequence that satisfies the recurrence that the user
wrote. -/
theorem C149_order_reduction [DecidableEq K] (hL : Reducible n r ms e st co g) (hA : Assumed I OL n r B ρ e st co g f roots p rv b P) {x : Expr}
    (h : solveLinear OL n (writeReduced n r g e).1 (writeReduced n r g e).2 f (co.length / g) true
      (.num ((OrderRed.newCoefficients g co).getD 1 0)) (some roots) old = some x)
    {X : K → K} (hX : SolvesAt I n e ρ X (f + st.order)) :
    ∀ N : ℕ, g * f ≤ N → eval (withX I X) (update ρ n N) (comeBack n r (modE n g) g x) = X N := by
  obtain ⟨hI, hlen⟩ := hL.toIs
  obtain ⟨hg, hq⟩ := hI.pos
  have hc1 : (OrderRed.newCoefficients g co).getD 1 0 = co.getD g 0 := by
    have := OrderRed.C30_reduced_coefficients g hg co 1 (by
      have := hI.order
      have : g * 1 ≤ g * (co.length / g) := Nat.mul_le_mul_left g hq
      omega)
    rwa [one_mul] at this
  have key : ∀ m < g, Shape B (ICs f (co.length / g)) x ∧ IsSolution I n (writeReduced n r g e).1 (update ρ r (m : K)) x f (co.length / g) := by
    intro m hm
    refine SolveLin.C145_constant_coefficients (hA.ops m hm) hq (a := fun i => ((co.getD (g * i) 0 : ℚ) : K)) ?_
      (reduced_recIs hI hA.ne hA.new hA.inhom hA.shape (hA.auto m hm) hA.out) ?_ (by simp [Shape]) (hA.rootsOk m hm) (hA.terms m hm)
      (hA.bases m hm) (hA.solved m hm) hA.noRest h
    · have := hL.last
      rw [hI.order] at this
      exact_mod_cast this
    · intro _ Y σ N _ _
      rw [hc1]
      simp [eval]
  have hX' : SolvesAt I n e ρ X (f + g * (co.length / g)) := by rw [← hI.order]; exact hX
  exact OrderRed.C30_order_reduction_partial I hA.ne g hg.ne' hA.mod hI.rhs
    (solOk_of_shape (hA.ops 0 hg).nB hA.notB (key 0 hg).1) f (co.length / g) ρ (fun m hm => (key m hm).2) X hX'

end

/-- **C149**, with initial conditions: the solution `s` (obtained by simplifying the expression of `C149_order_reduction`), in which
`mod(n, g)` occurs, is expanded into powers of roots of unity; the values stay those of the sequence. -/
theorem C149_expanded {I : Interp ℂ} {n r : String} {ms g : ℕ} {e : Expr} {st : St} {co : List ℚ} {OL : SolveLin.Ops} {B : String → Prop}
    {ρ : String → ℂ} {f : ℕ} {roots : List (Expr × ℕ)} {old : Option Expr} {p : ℕ → ℂ} {rv : Expr → ℂ} {b : ℕ → Expr × Expr × Expr → ℂ}
    {P : ℕ → Expr × Expr × Expr → ℂ[X]} (hstd : OrderRed.Std I) (hL : Reducible n r ms e st co g)
    (hA : Assumed I OL n r B ρ e st co g f roots p rv b P) {x s : Expr}
    (h : solveLinear OL n (writeReduced n r g e).1 (writeReduced n r g e).2 f (co.length / g) true
      (.num ((OrderRed.newCoefficients g co).getD 1 0)) (some roots) old = some x)
    (hs : OrderRed.idxNe n s = true)
    (hv : ∀ (X : ℂ → ℂ) (N : ℕ), eval (withX I X) (update ρ n N) s = eval (withX I X) (update ρ n N) (comeBack n r (modE n g) g x))
    {X : ℂ → ℂ} (hX : SolvesAt I n e ρ X (f + st.order)) :
    ∀ N : ℕ, g * f ≤ N → eval (withX I X) (update ρ n N) (OrderRed.writeExpanded n st.order g s) = X N := by
  classical
  intro N hN
  have hstd' : OrderRed.Std (withX I X) := by
    refine ⟨hstd.pi, hstd.i, fun z => ?_, fun z => ?_, fun M k => ?_⟩
    · rw [← hstd.cos z]; simp [withX]
    · rw [← hstd.sin z]; simp [withX]
    · rw [← hstd.mod M k]; simp [withX]
  rw [OrderRed.C30_expanded_solution hstd' n st.order g (by have := hL.two; omega) s hs N _ (by simp), hv]
  exact C149_order_reduction hL hA h hX N hN

end Purrs.CapstoneReduce
