import Verif.Props.CapstoneVar
import Verif.Props.WeightedExtract
import Verif.Props.Scalar

/-!
# Weighted averages: from the right-hand side written by the user, through any calls, to the answer (C154)

The recognition (C153), the search of the domain (C58), the rewriting (C34), the solution from that of the associated recurrence (C106), the state of the
object and the treatment of the initial conditions (C138).  Values are real numbers.
-/

set_option linter.unusedSectionVars false

namespace Purrs.CapstoneWA

open Function (update update_of_ne update_self)
open OrderRed (withX eval_noX SolvesAt IsSolution idxNe)
open OnIC (Shape)
open SolveLin (Denotes Unknown OpsOk KeepsX VarOk ICs solveLinear)
open Capstone (SoundWeighted FirstIC)
open FirstIndex (Searched)
open WeightedAvg (WA upperStep rewriteWA computeWA Regular SolvesWA divE x0ok)
open WeightedExtract (Extracted classifyWA sumOf OpsKeep FirstPower domain domStep store)
open Bounds (val)
open RecState

/-- The weight and the inhomogeneous term after the rewriting of the upper limit. -/
def wUp (n : String) (r : Extracted) : Expr := (upperStep n r.upperIsN r.lower r.weight r.inhom).1
def gUp (n : String) (r : Extracted) : Expr := (upperStep n r.upperIsN r.lower r.weight r.inhom).2.1

/-- The right-hand side `e` is taken for a weighted average, `r` is what is read and `wa` what is stored; the sum is one of `x(k)`; neither weight nor
inhomogeneous term contain the unknown; the search of the zeros succeeds; the weight is neither literally `1` (with upper limit `n`) nor, in the end,
literally `-1`. -/
structure IsWeighted (O : WeightedExtract.Ops) (n y : String) (B : String → Prop) (ρ : String → ℝ) (ms fuel : ℕ) (e : Expr) (r : Extracted) (wa : WA) :
    Prop where
  ok : classifyWA O n y ms e = some (r, wa)
  sum : ∃ k lo up os, sumOf n e = some (.binder .sum (.sym k) lo up (.fn .x [.sym k]), os) ∧
    OpsKeep (realInterp 0) O n ρ e (.binder .sum (.sym k) lo up (.fn .x [.sym k])) os ∧
    FirstPower (.binder .sum (.sym k) lo up (.fn .x [.sym k])) (O.simp e)
  weight : Shape B (fun _ => False) r.weight
  inhom : Shape B (fun _ => False) r.inhom
  apart : ∀ s, B s → isScalarRep s r.weight = true ∧ isScalarRep s r.inhom = true
  nB : ¬ B n
  fuel : O.fuel = fuel + 1
  searched : Searched 0 ρ n O.env (O.num (wUp n r)) ∧ Searched 0 ρ n O.env (O.den (wUp n r))
  quotient : ∀ N : ℕ, r.lower < N → val 0 ρ n (O.den (wUp n r)) N ≠ 0 →
    val 0 ρ n (wUp n r) N = val 0 ρ n (O.num (wUp n r)) N / val 0 ρ n (O.den (wUp n r)) N
  fraction : ∀ p, p = O.num (wUp n r) ∨ p = O.den (wUp n r) → ∀ N : ℕ, r.lower < N → val 0 ρ n (O.env.den p) N ≠ 0 →
    val 0 ρ n p N = val 0 ρ n (O.env.num p) N / val 0 ρ n (O.env.den p) N
  notOne : r.upperIsN = true → r.weight ≠ .num 1
  notMinus : wa.weight ≠ .num (-1)

/-- The associated recurrence of order 1 is solved, with first valid index 0. -/
def FirstSolved (n : String) (B : String → Prop) (ρ : String → ℝ) (wa : WA) (sol1 : Option Expr) : Prop :=
  ∀ s, sol1 = some s → Shape B (ICs 0 1) s ∧ IsSolution (realInterp 0) n wa.rhsFirst ρ s 0 1

/-- What the solver returns, possibly with the new symbols renamed. -/
inductive Returned (E : Engine) (n : String) (wa : WA) (sol1 : Option Expr) : Expr → Prop
  | solve {s : Expr} : sol1 = some s → Returned E n wa sol1 (computeWA n wa s)
  | rename {x : Expr} : Returned E n wa sol1 x → Returned E n wa sol1 (E.rename x)

/-- The parts behind the object are those of the library. -/
structure Wired (E : Engine) (OI : OnIC.Ops) (n : String) (e : Expr) (wa : WA) (sol1 : Option Expr) : Prop where
  classify : E.classify e = (.success, ⟨.weighted, 0, wa.first, 0⟩, e)
  solve : ∀ b, E.solve e ⟨.weighted, 0, wa.first, 0⟩ b =
    match sol1 with
    | some s => .ok (computeWA n wa s)
    | none => .error .tooComplex
  onIC : ∃ d w g z s, ∀ m x, E.onIC e ⟨.weighted, 0, wa.first, 0⟩ m x =
    (OnIC.evaluate OI n ⟨.weighted, 0, wa.first, 0⟩ d w g z s m x).getD (.num 0)

/-- What is assumed of the renaming of the symbols. -/
structure Assumed (E : Engine) (n : String) (B : String → Prop) (ρ : String → ℝ) (e : Expr) (wa : WA) (sol1 : Option Expr) : Prop where
  rename : KeepsX (realInterp 0) n ρ (wa.first + 1) B (fun q => q = (wa.first : ℚ)) E.rename
  renameIC : ∀ m x, Returned E n wa sol1 x → ∀ (N : ℕ) Y,
    eval (withX (realInterp 0) Y) (update ρ n N) (E.rename (E.onIC e ⟨.weighted, 0, wa.first, 0⟩ m x)) =
      eval (withX (realInterp 0) Y) (update ρ n N) (E.onIC e ⟨.weighted, 0, wa.first, 0⟩ m x)

variable {O : WeightedExtract.Ops} {n y : String} {B : String → Prop} {ρ : String → ℝ} {ms fuel : ℕ} {e : Expr} {r : Extracted} {wa : WA}
  {E : Engine} {OI : OnIC.Ops} {sol1 : Option Expr}

theorem stored (h : IsWeighted O n y B ρ ms fuel e r wa) :
    ∃ z, domain O n (wUp n r) (gUp n r) = some z ∧ rewriteWA n r.upperIsN r.lower r.weight r.inhom z = some wa := by
  obtain ⟨-, t, os, -, -, h3⟩ := WeightedExtract.classifyWA_cases h.ok
  exact Option.bind_eq_some_iff.mp h3

theorem findDomain_mono (V : Functional.Env) (n : String) (fuel : ℕ) (e : Expr) (z : ℤ) : z ≤ (Functional.findDomain V n fuel e z).2 := by
  unfold Functional.findDomain Functional.bothDom
  split_ifs
  · exact le_trans (Functional.C58_monotone V n fuel _ _) (Functional.C58_monotone V n fuel _ _)
  · exact Functional.C58_monotone V n fuel _ _

/-- The weight does not vanish above the lower limit. -/
theorem wUp_ne (h : IsWeighted O n y B ρ ms fuel e r wa) (N : ℕ) (hN : r.lower < N) : val 0 ρ n (wUp n r) N ≠ 0 := by
  obtain ⟨z, hz, hwa⟩ := stored h
  have hzl := (WeightedAvg.rewriteWA_spec h.notOne hwa).2.2.2.2.2.2.2.1
  obtain ⟨z3, h1, rfl⟩ := Option.map_eq_some_iff.mp hz
  obtain ⟨z1, d1, h2⟩ := Option.bind_eq_some_iff.mp h1
  obtain ⟨z2, d2, d3⟩ := Option.bind_eq_some_iff.mp h2
  have step : ∀ {p : Expr} {a b : ℤ}, domStep O n p a = some b → Functional.findDomain O.env n (fuel + 1) p a = (true, b) := by
    intro p a b hd
    rw [domStep, h.fuel] at hd
    by_cases hc : (Functional.findDomain O.env n (fuel + 1) p a).1 = true
    · rw [if_pos hc, Option.some.injEq] at hd
      exact Prod.ext hc hd
    · rw [if_neg hc] at hd
      cases hd
  have e1 := FirstIndex.findDomain_spec (fuel := fuel) h.searched.1 0
  have e2 := FirstIndex.findDomain_spec (fuel := fuel) h.searched.2 z1
  rw [step d1] at e1
  rw [step d2] at e2
  have hmono : z2 ≤ z3 := by
    have := findDomain_mono O.env n (fuel + 1) (O.den (gUp n r)) z2
    rw [step d3] at this
    exact this
  obtain ⟨-, -, n1, -⟩ := e1
  obtain ⟨-, m1, n2, -⟩ := e2
  simp only at n1 n2 m1
  obtain ⟨a1, a2⟩ := n1 N (by omega)
  obtain ⟨b1, b2⟩ := n2 N (by omega)
  have v1 := h.fraction _ (Or.inl rfl) N hN a2
  have v2 := h.fraction _ (Or.inr rfl) N hN b2
  have hd : val 0 ρ n (O.den (wUp n r)) N ≠ 0 := by rw [v2]; exact div_ne_zero b1 b2
  rw [h.quotient N hN hd, v1]
  exact div_ne_zero (div_ne_zero a1 a2) hd

/-- What C34 and C106 assume holds. -/
theorem regular (h : IsWeighted O n y B ρ ms fuel e r wa) : Regular (realInterp 0) n ρ r.weight r.inhom r.lower r.upperIsN := by
  have hx := OnIC.shape_hasX h.weight
  have key : ∀ (X : ℝ → ℝ) (N : ℕ), eval (withX (realInterp 0) X) (update ρ n (N : ℝ)) r.weight = val 0 ρ n r.weight N := by
    intro X N
    rw [eval_noX (realInterp 0) X 0 _ hx, NonLinear.withX_real]
    rfl
  have hne : ∀ N : ℕ, r.lower < N → val 0 ρ n r.weight N ≠ 0 ∧ (r.upperIsN = true → val 0 ρ n r.weight N ≠ 1) := by
    intro N hN
    have hw := wUp_ne h N hN
    cases hu : r.upperIsN with
    | false =>
      refine ⟨?_, by simp⟩
      rwa [wUp, hu, upperStep, if_neg (by simp)] at hw
    | true =>
      rw [wUp, hu, upperStep, if_pos rfl, if_pos (h.notOne hu)] at hw
      have e1 : val 0 ρ n (divE r.weight (subE (.num 1) r.weight)) N = val 0 ρ n r.weight N / (1 - val 0 ρ n r.weight N) := by
        simp only [val, WeightedAvg.eval_divE, eval_subE, eval, Rat.cast_one]
      rw [e1] at hw
      refine ⟨fun h0 => hw (by rw [h0]; simp), fun _ h1 => hw (by rw [h1]; simp)⟩
  refine ⟨SolveLin.shape_idx h.nB h.weight, SolveLin.shape_idx h.nB h.inhom, hx, OnIC.shape_hasX h.inhom, h.notOne, ?_, ?_⟩
  · intro X N hN
    rw [key]
    exact (hne N hN).1
  · intro hu X N hN
    rw [key]
    exact (hne N hN).2 hu

theorem shape_divE {B : String → Prop} {S : ℚ → Prop} {a b : Expr} (ha : Shape B S a) (hb : Shape B S b) : Shape B S (divE a b) :=
  OnIC.shape_mulE ha (OnIC.shape_powE hb (by simp [Shape]))

theorem scalar_divE {s : String} {a b : Expr} (ha : isScalarRep s a = true) (hb : isScalarRep s b = true) : isScalarRep s (divE a b) = true :=
  SimplifySum.scalar_mulE ha (CapstoneLinear.scalar_powE hb (by simp [isScalarRep]))

theorem scalar_subE {s : String} {a b : Expr} (ha : isScalarRep s a = true) (hb : isScalarRep s b = true) : isScalarRep s (subE a b) = true :=
  SimplifySum.scalar_addE ha (SimplifySum.scalar_mulE (by simp [isScalarRep]) hb)

/-- What is stored before the shift of the lower limit. -/
theorem orig (h : IsWeighted O n y B ρ ms fuel e r wa) :
    Shape B (fun _ => False) wa.origWeight ∧ Shape B (fun _ => False) wa.origInhom ∧
    ∀ s, B s → isScalarRep s wa.origWeight = true ∧ isScalarRep s wa.origInhom = true := by
  obtain ⟨z, -, hwa⟩ := stored h
  obtain ⟨s1, s2, -⟩ := WeightedAvg.rewriteWA_spec h.notOne hwa
  rw [s1, s2]
  cases hu : r.upperIsN with
  | false =>
    rw [upperStep, if_neg (by simp)]
    exact ⟨h.weight, h.inhom, h.apart⟩
  | true =>
    rw [upperStep, if_pos rfl, if_pos (h.notOne hu)]
    have h1 : Shape B (fun _ => False) (subE (.num 1) r.weight) := SolveLin.shape_subE (by simp [Shape]) h.weight
    refine ⟨shape_divE h.weight h1, shape_divE h.inhom h1, fun s hs => ?_⟩
    obtain ⟨a1, a2⟩ := h.apart s hs
    have h2 : isScalarRep s (subE (.num 1) r.weight) = true := scalar_subE (by simp [isScalarRep]) a1
    exact ⟨scalar_divE a1 h2, scalar_divE a2 h2⟩

/-- Expressions of this form are those on which `x(0)` can be replaced. -/
theorem x0ok_of_shape {n : String} {t : Expr} (hn : ¬ B n) (hB : ∀ s, B s → isScalarRep s t = true) {x : Expr} (h : Shape B (fun q => q = 0) x) :
    x0ok n t x = true := by
  induction x using Expr.ind with
  | num q => simp [x0ok]
  | const q => simp [x0ok]
  | sym s => simp [x0ok]
  | add l ih => rw [Shape] at h; simp only [x0ok, List.all_map, List.all_eq_true, Function.comp, id]; exact fun a ha => ih a ha (h a ha)
  | mul l ih => rw [Shape] at h; simp only [x0ok, List.all_map, List.all_eq_true, Function.comp, id]; exact fun a ha => ih a ha (h a ha)
  | pow b x hb hx => rw [Shape] at h; simp [x0ok, hb h.1, hx h.2]
  | fn f l ih =>
    rw [Shape] at h
    by_cases hf : f = .x
    · obtain ⟨q, hl, hq⟩ := h.1 hf
      simp [x0ok, hf, hl, hq]
    · simp only [x0ok, if_neg hf, List.all_map, List.all_eq_true, Function.comp, id]
      exact fun a ha => ih a ha (h.2 a ha)
  | binder k i a b c hi ha hb hc =>
    cases i with
    | sym s =>
      simp only [Shape] at h
      obtain ⟨⟨s', hs', h0⟩, h1, h2, h3⟩ := h
      cases hs'
      have hne : s ≠ n := by rintro rfl; exact hn h0
      simp [x0ok, hne, hB s h0, ha h1, hb h2, hc h3]
    | _ => simp [Shape] at h

/-- The form of what is returned. -/
theorem shape_compute (h : IsWeighted O n y B ρ ms fuel e r wa) {s : Expr} (hs : Shape B (fun q => q = 0) s) :
    Shape B (fun q => q = (r.lower : ℚ)) (computeWA n wa s) := by
  obtain ⟨z, -, hwa⟩ := stored h
  obtain ⟨-, -, s3, s4, -, -, -, -, -⟩ := WeightedAvg.rewriteWA_spec h.notOne hwa
  obtain ⟨hwo, hgo, -⟩ := orig h
  have hne : ∀ t, B t → Expr.sym n ≠ .sym t := by intro t ht h'; cases h'; exact h.nB ht
  have hsub : ∀ {S : ℚ → Prop} {r e : Expr}, Shape B S r → Shape B S e → Shape B S (substitute (.sym n) r e) :=
    fun hr he => OnIC.shape_substitute hr (by simp) hne (fun q hq _ => hq) he
  have hF : ∀ {S : ℚ → Prop} {e : Expr}, Shape B (fun _ => False) e → Shape B S e := fun h => OnIC.shape_mono (fun _ h => h.elim) h
  have hws : Shape B (fun _ => False) (if wa.rewritten then wa.origWeight else wa.weight) := by
    by_cases h : wa.rewritten = true
    · rw [if_pos h]; exact hwo
    · rw [if_neg h, (s4 (by simpa using h)).2.1]; exact hwo
  have hgs : Shape B (fun _ => False) (if wa.rewritten then wa.origInhom else wa.inhom) := by
    by_cases h : wa.rewritten = true
    · rw [if_pos h]; exact hgo
    · rw [if_neg h, (s4 (by simpa using h)).2.2]; exact hgo
  have hlo : (if wa.rewritten then wa.lower else 0) = r.lower := by
    by_cases h : wa.rewritten = true
    · rw [if_pos h, s3]
    · rw [if_neg h, (s4 (by simpa using h)).1]
  rw [computeWA, if_neg h.notMinus]
  dsimp only
  rw [hlo]
  refine OnIC.shape_substitute (S := fun q => q = 0) ?_ (by simp) (by simp) ?_ ?_
  · refine hsub (by simp [Shape]) (OnIC.shape_addE (OnIC.shape_mulE (hF hws) ?_) (hF hgs))
    simp [Shape]
  · rintro q rfl h
    exact absurd rfl h
  · refine hsub ?_ hs
    rw [WeightedAvg.shiftN]
    exact OnIC.shape_addE (by simp [Shape]) (by simp [Shape])

theorem first_eq (h : IsWeighted O n y B ρ ms fuel e r wa) : wa.first = r.lower := by
  obtain ⟨z, -, hwa⟩ := stored h
  exact (WeightedAvg.rewriteWA_spec h.notOne hwa).2.2.2.2.2.2.2.2

/-- What is returned. -/
theorem returned (h : IsWeighted O n y B ρ ms fuel e r wa) (hF : FirstSolved n B ρ wa sol1) (hA : Assumed E n B ρ e wa sol1) {x : Expr}
    (hx : Returned E n wa sol1 x) : Shape B (fun q => q = (wa.first : ℚ)) x ∧
      ∀ X : ℝ → ℝ, SolvesWA (realInterp 0) n ρ r.weight r.inhom r.lower r.upperIsN X → ∀ N : ℕ, r.lower < N →
        eval (withX (realInterp 0) X) (update ρ n N) x = X N := by
  have hf := first_eq h
  induction hx with
  | @solve s hs =>
    obtain ⟨z, -, hwa⟩ := stored h
    obtain ⟨a1, a2⟩ := hF s hs
    have a3 : Shape B (fun q => q = 0) s := by
      refine OnIC.shape_mono ?_ a1
      rintro q ⟨i, hi, rfl⟩
      obtain rfl : i = 0 := by omega
      simp
    obtain ⟨-, -, o3⟩ := orig h
    refine ⟨by rw [hf]; exact shape_compute h a3, fun X hX N hN => ?_⟩
    refine WeightedAvg.C106_solution_partial (regular h) hwa h.notMinus ?_ a2 X hX N hN
    rintro t rfl
    refine x0ok_of_shape h.nB (fun s hs => ?_) a3
    obtain ⟨b1, b2⟩ := o3 s hs
    exact CapstoneLinear.scalar_substitute (by simp [isScalarRep])
      (SimplifySum.scalar_addE (SimplifySum.scalar_mulE b1 (by simp [isScalarRep])) b2)
  | rename hx ih =>
    refine ⟨hA.rename.shape _ ih.1, fun X hX N hN => ?_⟩
    rw [hA.rename.val _ ih.1 X N (by omega), ih.2 X hX N hN]

/-- Everything that C138 assumes holds. -/
theorem sound (h : IsWeighted O n y B ρ ms fuel e r wa) (hF : FirstSolved n B ρ wa sol1) (hW : Wired E OI n e wa sol1)
    (hA : Assumed E n B ρ e wa sol1) :
    SoundWeighted (realInterp 0) E OI n B ρ e r.weight r.inhom r.upperIsN (Returned E n wa sol1) := by
  have hc := hW.classify
  have hf := first_eq h
  constructor
  · rw [hc]; simp
  · rw [hc]
  · intro b x hx
    rw [hc] at hx
    simp only at hx
    rw [hW.solve] at hx
    cases hs : sol1 with
    | none => rw [hs] at hx; cases hx
    | some s =>
      rw [hs] at hx
      simp only [Except.ok.injEq] at hx
      subst hx
      exact .solve rfl
  · exact fun x hx => .rename hx
  · intro x hx
    rw [hc]
    exact (returned h hF hA hx).1
  · intro x hx
    rw [hc]
    simp only
    rw [hf]
    exact (returned h hF hA hx).2
  · rw [hc]; exact hW.onIC
  · rw [hc]; exact hA.renameIC

/-- **C154.**  The user writes `x(n) = e`; it is taken for a weighted average whose sum, of `x(k)`, starts at `r.lower`, and the associated recurrence of order 1 is solved from 0
on.  An answer of `exact_solution()`, `lower_bound()` or `upper_bound()`, after any calls, is the solution of the recurrence that the user
wrote: without initial conditions it is equal above the lower limit to every sequence satisfying it; with the initial condition given at the lower
limit it is, whatever `x` stands for, equal there to every sequence with this value that satisfies it. -/
theorem C154_answer_is_solution (h : IsWeighted O n y B ρ ms fuel e r wa) (hF : FirstSolved n B ρ wa sol1) (hW : Wired E OI n e wa sol1)
    (hA : Assumed E n B ρ e wa sol1) {s : RecState} (hs : RecReach E e s) {w : Which} {v : Expr} (hv : (query E w s).2 = some v)
    {X : ℝ → ℝ} (hX : SolvesAt (realInterp 0) n e ρ X (r.lower + 1)) {N : ℕ} (hN : r.lower < N) :
    (s.ics = [] → eval (withX (realInterp 0) X) (update ρ n N) v = X N) ∧
    (s.ics ≠ [] → ∀ u, FirstIC (realInterp 0) n B r.lower s.ics u → X (r.lower : ℝ) = eval (withX (realInterp 0) X) ρ u →
      ∀ Y, eval (withX (realInterp 0) Y) (update ρ n N) v = X N) := by
  obtain ⟨k, lo, up, os, c1, c2, c3⟩ := h.sum
  have hX' := (WeightedExtract.C153_solutions_partial (WeightedExtract.sumMeaning_real 0) h.ok c1 c2 c3 X).mp hX
  have := Capstone.C138_answer_is_solution (sound h hF hW hA) hs hv (X := X) (N := N)
  rw [hW.classify] at this
  simp only at this
  rw [first_eq h] at this
  exact this hX' hN

/-- **C154**, the values: with the initial condition given at the lower limit, the evaluation of the answer at any `N` from there on is the value of the
sequence with this value that satisfies the recurrence that the user wrote. -/
theorem C154_evaluation_is_value {B : String → Prop} (h : IsWeighted O "n" y B ρ ms fuel e r wa) (hF : FirstSolved "n" B ρ wa sol1)
    (hW : Wired E OI "n" e wa sol1) (hA : Assumed E "n" B ρ e wa sol1) {s : RecState} (hs : RecReach E e s) {w : Which} {v : Expr}
    (hv : (query E w s).2 = some v) (hb : idxNe "n" v = true) {u : Expr} (hm : FirstIC (realInterp 0) "n" B r.lower s.ics u)
    {X : ℝ → ℝ} (hX : SolvesAt (realInterp 0) "n" e ρ X (r.lower + 1)) (hXu : X (r.lower : ℝ) = eval (withX (realInterp 0) X) ρ u)
    {N : ℕ} (hN : r.lower ≤ N) : ∃ t, (evaluate (query E w) s N).2 = .value t ∧ ∀ Y, eval (withX (realInterp 0) Y) ρ t = X N := by
  obtain ⟨k, lo, up, os, c1, c2, c3⟩ := h.sum
  have hX' := (WeightedExtract.C153_solutions_partial (WeightedExtract.sumMeaning_real 0) h.ok c1 c2 c3 X).mp hX
  have := Capstone.C138_evaluation_is_value (sound h hF hW hA) hs hv hb (v := u) (X := X) (N := N)
  rw [hW.classify] at this
  simp only at this
  rw [first_eq h] at this
  exact this hm hX' hXu hN

/-! ### The associated recurrence -/

/-- The right-hand side of the associated recurrence after its simplification has the same values. -/
def SameRhs (n : String) (ρ : String → ℝ) (wa : WA) (rhs1 : Expr) : Prop :=
  ∀ (X : ℝ → ℝ) (N : ℕ), 1 ≤ N → eval (withX (realInterp 0) X) (update ρ n N) rhs1 = eval (withX (realInterp 0) X) (update ρ n N) wa.rhsFirst

theorem solution_of_same {rhs1 s : Expr} (h : SameRhs n ρ wa rhs1) (hs : IsSolution (realInterp 0) n rhs1 ρ s 0 1) :
    IsSolution (realInterp 0) n wa.rhsFirst ρ s 0 1 := by
  intro X hX N hN
  refine hs X (fun M hM => ?_) N hN
  rw [h X M (by omega)]
  exact hX M hM

/-- **C154**, the associated recurrence: if it has a coefficient that depends on `n` and the first valid index 0, the solver of C145 solves it. -/
theorem C154_first_variable {V : Functional.Env} {den : Expr → Expr} {OL : SolveLin.Ops} {rhs1 : Expr} {st : Classify.St} {p : ℕ → ℝ} {ms1 fuel1 : ℕ}
    (hL : CapstoneVar.IsVariable V den n ρ ms1 fuel1 rhs1 st 0) (hO : OpsOk (realInterp 0) OL n B ρ 0 1)
    (hV : VarOk (realInterp 0) OL n B ρ 0 (CapstoneVar.coeff st) st.inhom (fun N => val 0 ρ n (CapstoneVar.coeff st) N) p)
    (hp : Denotes (realInterp 0) n (Unknown OL) ρ 0 st.inhom p) (hs : SameRhs n ρ wa rhs1) :
    FirstSolved n B ρ wa (solveLinear OL n rhs1 st.inhom 0 1 false (CapstoneVar.coeff st) none none) := by
  intro s h
  obtain ⟨h1, h2⟩ := SolveLin.C145_variable_coefficient hO hV (fun m hm => CapstoneVar.coeff_ne hL m hm) hp
    (fun X N hN => CapstoneVar.lin hL hp X hN) h
  exact ⟨h1, solution_of_same hs h2⟩

/-- **C154**, the associated recurrence: if it has a constant coefficient, the solver of C145 solves it. -/
theorem C154_first_constant {E1 : Engine} {OL : SolveLin.Ops} {O1 : OnIC.Ops} {rhs1 : Expr} {st : Classify.St} {co : List ℚ} {roots : List (Expr × ℕ)}
    {p : ℕ → ℝ} {rv : Expr → ℝ} {b : Expr × Expr × Expr → ℝ} {P : Expr × Expr × Expr → Polynomial ℝ} {ms1 : ℕ}
    (hL : CapstoneLinear.IsLinear n ms1 rhs1 st co) (ho : st.order = 1)
    (hA : CapstoneLinear.Assumed (realInterp 0) E1 OL O1 n B ρ rhs1 st co 0 roots none p rv b P) (hs : SameRhs n ρ wa rhs1) :
    FirstSolved n B ρ wa (solveLinear OL n rhs1 st.inhom 0 st.order true (st.coeffs.getD 1 (.num 0)) (some roots) none) := by
  classical
  intro s h
  obtain ⟨h1, h2⟩ := CapstoneLinear.returned hL hA (.solve h)
  rw [ho] at h1 h2
  exact ⟨h1, solution_of_same hs h2⟩

end Purrs.CapstoneWA
