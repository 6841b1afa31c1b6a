import Verif.Props.OnICMore
import Verif.Props.NonLinearBounds

/-!
# Initial conditions: `x(n) = c x(n-1)^a` (C121) and the bounds of functional equations (C124)
-/

set_option linter.unusedSectionVars false

namespace Purrs.OnIC

open Function (update update_of_ne update_self update_comm)
open OrderRed (withX eval_x eval_noX SolvesAt IsSolution)
open Verify (xAt getIC maxIC hasIC)
open NonLinear (simpleForm simpleSolution simpleOnIC eval_simpleForm RealLog C33_simple_integer C33_simple_integer_ic C33_simple_positive C33_simple_positive_ic)
open WeightedAvg (x0ok eval_subst_x0)

/-! ### `x(n) = c x(n-1)^a` -/

/-- Expressions without sums, products and `x`. -/
theorem shape_plain {v : Expr} (hb : hasSumOrProd v = false) (hx : hasX v = false) : Shape (fun _ => False) (fun _ => False) v := by
  induction v using Expr.ind with
  | num q => simp [Shape]
  | const q => simp [Shape]
  | sym q => simp [Shape]
  | add l ih =>
    simp only [Shape]
    simp [hasSumOrProd] at hb
    simp [hasX] at hx
    exact fun a ha => ih a ha (hb a ha) (hx a ha)
  | mul l ih =>
    simp only [Shape]
    simp [hasSumOrProd] at hb
    simp [hasX] at hx
    exact fun a ha => ih a ha (hb a ha) (hx a ha)
  | pow a b ha hb' =>
    simp only [hasSumOrProd, Bool.or_eq_false_iff] at hb
    simp only [hasX, Bool.or_eq_false_iff] at hx
    rw [Shape]
    exact ⟨ha hb.1 hx.1, hb' hb.2 hx.2⟩
  | fn f l ih =>
    simp only [Shape]
    by_cases hf : f = .x
    · simp [hasX, hf] at hx
    · simp [hasSumOrProd] at hb
      simp [hasX, hf] at hx
      exact ⟨fun h => absurd h hf, fun a ha => ih a ha (hb a ha) (hx a ha)⟩
  | binder k i lo up body => simp [hasSumOrProd] at hb

theorem shape_simple (n : String) (c a : ℚ) : Shape (fun _ => False) (fun q => q = 0) (simpleSolution n c a) := by
  unfold simpleSolution subE negE
  refine shape_mulE (shape_powE (by simp [Shape]) (shape_mulE (shape_addE (shape_powE (by simp [Shape]) (by simp [Shape]))
    (shape_mulE (by simp [Shape]) (by simp [Shape]))) (shape_powE (shape_addE (by simp [Shape])
    (shape_mulE (by simp [Shape]) (by simp [Shape]))) (by simp [Shape])))) (shape_powE (by simp [Shape])
    (shape_powE (by simp [Shape]) (by simp [Shape])))

theorem hasX_simple0 (n : String) (c a : ℚ) {v : Expr} (hb : hasSumOrProd v = false) (hx : hasX v = false) :
    Shape (fun _ => False) (fun _ => False) (substitute (.fn .x [.num 0]) v (simpleSolution n c a)) := by
  refine shape_substitute (shape_plain hb hx) (by simp) (by simp) ?_ (shape_simple n c a)
  rintro q rfl h
  exact absurd rfl h

theorem hasX_simple (n : String) (c a : ℚ) (k : ℕ) {v : Expr} (hb : hasSumOrProd v = false) (hx : hasX v = false) :
    hasX (simpleOnIC n c a k v) = false := by
  refine shape_hasX (B := fun _ => False) ?_
  unfold simpleOnIC
  refine shape_substitute (S := fun _ => False) ?_ (by simp) (by simp) (by simp) (hasX_simple0 n c a hb hx)
  unfold subE negE
  exact shape_addE (by simp [Shape]) (shape_mulE (by simp [Shape]) (by simp [Shape]))

/-- What is returned, for a map accepted for a recurrence of order one. -/
theorem simple_cases (O : Ops) (n : String) (c a : ℚ) (hc : c ≠ 0) (lin : Expr) {m : ICMap} (hm : m.Sorted) {L : ℕ} {v : Expr}
    (hlast : m.getLast? = some (L, v)) {e : Expr} (he : nonLinear O n 0 1 ⟨c, .num a, lin⟩ m (simpleSolution n c a) = some e) :
    (v = .num 0 ∧ e = .num 0) ∨ (1 ≤ L ∧ e = simpleOnIC n c a L v) ∨
      (L = 0 ∧ e = O.simp (substitute (.fn .x [.num 0]) v (simpleSolution n c a))) := by
  unfold nonLinear at he
  rw [hlast] at he
  simp only at he
  by_cases h0 : v = .num 0
  · left
    rw [if_pos (by simp [lastIsZero, hlast, h0])] at he
    simp only [Option.some.injEq] at he
    exact ⟨h0, he.symm⟩
  · right
    rw [if_neg (by simp [lastIsZero, hlast, h0])] at he
    by_cases hL : 1 ≤ L
    · left
      rw [if_pos (by omega), if_pos hc] at he
      simp only [Option.some.injEq] at he
      refine ⟨hL, he.symm.trans ?_⟩
      simp [simpleOnIC, xAt]
    · right
      rw [if_neg (by omega)] at he
      simp only [Option.some.injEq] at he
      have hL0 : L = 0 := by omega
      refine ⟨hL0, he.symm.trans ?_⟩
      have hmm : m = [(L, v)] := by
        rcases List.eq_nil_or_concat m with rfl | ⟨pre, p, rfl⟩
        · simp at hlast
        · simp at hlast
          subst hlast
          cases pre with
          | nil => rfl
          | cons q pre =>
            have := hm
            unfold ICMap.Sorted at this
            simp [List.pairwise_append] at this
            have h1 : q.1 < L := by
              have hp := (List.pairwise_cons.1 hm).1 (L, v) (by simp)
              exact hp
            omega
      subst hL0
      simp [hmm, substAll, xAt]

section
variable {K : Type} [Field K] [CharZero K] {I : Interp K}

theorem x0ok_simple (n : String) (c a : ℚ) (h : Expr) : x0ok n h (simpleSolution n c a) = true := by
  unfold simpleSolution subE negE
  refine WeightedAvg.x0ok_mulE (WeightedAvg.x0ok_powE (by simp [x0ok]) (WeightedAvg.x0ok_mulE (WeightedAvg.x0ok_addE (WeightedAvg.x0ok_powE (by simp [x0ok]) (by simp [x0ok]))
      (WeightedAvg.x0ok_mulE (by simp [x0ok]) (by simp [x0ok]))) (WeightedAvg.x0ok_powE (WeightedAvg.x0ok_addE (by simp [x0ok])
      (WeightedAvg.x0ok_mulE (by simp [x0ok]) (by simp [x0ok]))) (by simp [x0ok])))) (WeightedAvg.x0ok_powE (by simp [x0ok])
      (WeightedAvg.x0ok_powE (by simp [x0ok]) (by simp [x0ok])))

theorem eval_simple0 (n : String) (c a : ℚ) {v : Expr} (hs : isScalarRep n v = true) (ρ : String → K) (X : K → K)
    (hv : eval (withX I X) ρ v = X 0) (N : ℕ) :
    eval (withX I X) (update ρ n (N : K)) (substitute (.fn .x [.num 0]) v (simpleSolution n c a)) =
      eval (withX I X) (update ρ n (N : K)) (simpleSolution n c a) :=
  eval_subst_x0 X X (x0ok_simple n c a v) _ (by rw [C20_scalar_sound _ n v hs, hv])

/-- **C121**, integer exponents.  Let `x(n) = c x(n-1)^a` with an integer `a ≥ 2` and `c ≠ 0`, and a map of initial conditions whose last
one, `x(L) = v`, is free of `n`, sums, products and `x`.  The expression returned does not contain `x` and has, at every
`N ≥ L`, the value of the sequence with that value at `L` that satisfies the recurrence from `L + 1` on. -/
theorem C121_integer (O : Ops) {n : String} {rhs : Expr} {c a : ℚ} (h : simpleForm n rhs = some (c, a)) (ha : a.den = 1) (ha2 : 2 ≤ a) (hc : c ≠ 0)
    (lin : Expr) {m : ICMap} (hm : m.Sorted) {L : ℕ} {v : Expr} (hlast : m.getLast? = some (L, v)) (hb : hasSumOrProd v = false) (hx : hasX v = false)
    (hs : isScalarRep n v = true) (ρ : String → K) (X : K → K) (hv : ∀ Y : K → K, eval (withX I Y) ρ v = X L) (hX : SolvesAt I n rhs ρ X (L + 1))
    {e : Expr} (he : nonLinear O n 0 1 ⟨c, .num a, lin⟩ m (simpleSolution n c a) = some e)
    (hsimp : ∀ (N : ℕ) Y, eval (withX I Y) (update ρ n N) (O.simp (substitute (xAt 0) v (simpleSolution n c a))) =
      eval (withX I Y) (update ρ n N) (substitute (xAt 0) v (simpleSolution n c a))) (N : ℕ) (hN : L ≤ N) :
    ∀ Y : K → K, eval (withX I Y) (update ρ n (N : K)) e = X N := by
  intro Y
  have ha1 : a ≠ 1 := by rintro rfl; norm_num at ha2
  rcases simple_cases O n c a hc lin hm hlast he with ⟨h0, rfl⟩ | ⟨_, rfl⟩ | ⟨rfl, hee⟩
  · have hX0 : X L = 0 := by rw [← hv X, h0]; simp [eval]
    have : ∀ j : ℕ, X ((L + j : ℕ) : K) = 0 := by
      intro j
      induction j with
      | zero => simpa using hX0
      | succ j ih =>
        rw [hX (L + (j + 1)) (by omega), eval_simpleForm I h]
        have : (((L + (j + 1) : ℕ) : K) - 1) = ((L + j : ℕ) : K) := by push_cast; ring
        rw [this, ih]
        have hz : (a : K) = ((a.num : ℤ) : K) := by
          have := Rat.coe_int_num_of_den_eq_one ha
          rw [← this]; simp
        rw [hz, I.pw_int, zero_zpow, mul_zero]
        have : (0 : ℚ) < a := by linarith
        exact (Rat.num_pos.2 this).ne'
    rw [show N = L + (N - L) by omega, this]
    simp [eval]
  · rw [eval_noX I Y X _ (hasX_simple n c a L hb hx)]
    exact C33_simple_integer_ic I h ha ha1 hc L hb hs ρ X (hv X) hX N hN
  · rw [hee, show (Expr.fn .x [.num 0]) = xAt 0 by simp [xAt], hsimp, show xAt 0 = (Expr.fn .x [.num 0]) by simp [xAt], eval_noX I Y X _ (shape_hasX (hasX_simple0 n c a hb hx)), eval_simple0 n c a hs ρ X (by simpa using hv X)]
    exact C33_simple_integer I h ha ha1 hc ρ X hX N

end

section
variable {I : Interp ℝ}

/-- **C121**, rational exponents `a ≠ 1`, with `c > 0` and a positive value. -/
theorem C121_positive (hI : RealLog I) (O : Ops) {n : String} {rhs : Expr} {c a : ℚ} (h : simpleForm n rhs = some (c, a)) (ha1 : a ≠ 1) (hc : 0 < c)
    (lin : Expr) {m : ICMap} (hm : m.Sorted) {L : ℕ} {v : Expr} (hlast : m.getLast? = some (L, v)) (hb : hasSumOrProd v = false) (hx : hasX v = false)
    (hs : isScalarRep n v = true) (ρ : String → ℝ) (X : ℝ → ℝ) (hpos : 0 < X L) (hv : ∀ Y : ℝ → ℝ, eval (withX I Y) ρ v = X L) (hX : SolvesAt I n rhs ρ X (L + 1))
    {e : Expr} (he : nonLinear O n 0 1 ⟨c, .num a, lin⟩ m (simpleSolution n c a) = some e)
    (hsimp : ∀ (N : ℕ) Y, eval (withX I Y) (update ρ n N) (O.simp (substitute (xAt 0) v (simpleSolution n c a))) =
      eval (withX I Y) (update ρ n N) (substitute (xAt 0) v (simpleSolution n c a))) (N : ℕ) (hN : L ≤ N) :
    ∀ Y : ℝ → ℝ, eval (withX I Y) (update ρ n (N : ℝ)) e = X N := by
  intro Y
  rcases simple_cases O n c a hc.ne' lin hm hlast he with ⟨h0, rfl⟩ | ⟨_, rfl⟩ | ⟨rfl, hee⟩
  · exfalso
    have hX0 : X L = 0 := by rw [← hv X, h0]; simp [eval]
    exact hpos.ne' hX0
  · rw [eval_noX I Y X _ (hasX_simple n c a L hb hx)]
    exact C33_simple_positive_ic hI h ha1 hc L hb hs ρ X hpos (hv X) hX N hN
  · rw [hee, show (Expr.fn .x [.num 0]) = xAt 0 by simp [xAt], hsimp, show xAt 0 = (Expr.fn .x [.num 0]) by simp [xAt], eval_noX I Y X _ (shape_hasX (hasX_simple0 n c a hb hx)), eval_simple0 n c a hs ρ X (by simpa using hv X)]
    exact C33_simple_positive hI h ha1 hc ρ X (by simpa using hpos) hX N

end

/-- The hypotheses of `C121_integer` are met by `x(n) = 3 x(n-1)^2` with `x(2) = 5`: every sequence with this value satisfies `x(3) = 75`, and the
answer, which exists, has this value at `3`. -/
theorem C121_nonvacuous (O : Ops) (hO : ∀ t, O.simp t = t) (lin : Expr) (ρ : String → ℝ) :
    RecState.checkICs { ty := .nonLinear, order := 1, first := 0, divisor := 0 } [(2, .num 5)] = .accepted ∧
    ∃ e, nonLinear O "n" 0 1 ⟨3, .num 2, lin⟩ [(2, .num 5)] (simpleSolution "n" 3 2) = some e ∧
      ∀ X : ℝ → ℝ, SolvesAt (realInterp 0) "n" (.mul [.num 3, .pow (.fn .x [.add [.sym "n", .num (-1)]]) (.num 2)]) ρ X 3 → X 2 = 5 →
        ∀ Y, eval (withX (realInterp 0) Y) (update ρ "n" ((3 : ℕ) : ℝ)) e = 75 := by
  refine ⟨?_, _, by simp [nonLinear, lastIsZero]; rfl, ?_⟩
  · simp [RecState.checkICs, RecState.checkFinite, RecState.largestKey, RecState.consecLoop, RecState.isNegNum]
  · intro X hX h5 Y
    have hf : simpleForm "n" (.mul [.num 3, .pow (.fn .x [.add [.sym "n", .num (-1)]]) (.num 2)]) = some (3, 2) := by simp [simpleForm]
    have h3 : X 3 = 75 := by
      have := hX 3 le_rfl
      rw [eval_simpleForm _ hf] at this
      norm_num at this
      rw [this, h5]
      norm_num [realInterp]
    have := C121_integer (I := realInterp 0) O (m := [(2, .num 5)]) (L := 2) (v := .num 5) hf (by norm_num) le_rfl (by norm_num) lin (by simp [ICMap.Sorted]) (by simp)
      (by simp [hasSumOrProd]) (by simp [hasX]) (by simp [isScalarRep]) ρ X (by simp [eval, h5]) hX (by simp [nonLinear, lastIsZero]; rfl) ?_ 3 (by norm_num) Y
    · rw [this]; exact_mod_cast h3
    · intro N Y
      rw [hO]

/-! ### Bounds of functional equations -/

open Bounds (val initialTerm fracLog Ty approximate Satisfies)

theorem shape_onlyIC {B : String → Prop} {S : ℚ → Prop} (n : String) (hS : ∀ q, S q → q.den = 1 ∧ 0 ≤ q) {e : Expr} (h : Shape B S e) :
    Verify.hasOnlyIC n e = true := by
  induction e using Expr.ind with
  | num q => simp [Verify.hasOnlyIC]
  | const q => simp [Verify.hasOnlyIC]
  | sym q => simp [Verify.hasOnlyIC]
  | add l ih =>
    simp only [Shape] at h
    simp [Verify.hasOnlyIC]
    exact fun a ha => ih a ha (h a ha)
  | mul l ih =>
    simp only [Shape] at h
    simp [Verify.hasOnlyIC]
    exact fun a ha => ih a ha (h a ha)
  | pow a b ha hb =>
    rw [Shape] at h
    simp [Verify.hasOnlyIC, ha h.1, hb h.2]
  | fn f l ih =>
    rw [Shape] at h
    by_cases hf : f = .x
    · obtain ⟨q, rfl, hq⟩ := h.1 hf
      simp [Verify.hasOnlyIC, hf, Verify.isICArg, hS q hq]
    · simp [Verify.hasOnlyIC, hf]
      exact fun a ha => ih a ha (h.2 a ha)
  | binder k i lo up body hi hlo hup hbody =>
    rw [Shape] at h
    obtain ⟨⟨t, rfl, _⟩, h1, h2, h3⟩ := h
    simp [Verify.hasOnlyIC, hlo h1, hup h2, hbody h3]

/-- **C124** (divisor 2).  Let `w` be a bound for `x(n) = a x(n/2) + g(n)` in which `x` occurs only as `x(1)`, and `m` a map of
initial conditions that is accepted.  Then `m` gives a non-negative number for `x(1)`; the bound evaluated on `m` does not
contain `x` and has the value of `w` for every function with that initial value: it is a bound for every such function
bounded by `w`. -/
theorem C124_divisor_two_partial {B : String → Prop} {n : String} {w : Expr} (hsh : Shape B (fun q => q = 1) w) (O : Ops) (info : Info)
    (hty : info.ty = .functional) (hd : info.divisor = 2) (d : NLData) (weight inhom : Expr) (z : ℕ) (sol1 : Expr) {m : ICMap}
    (hacc : RecState.checkICs info m = .accepted) :
    ∃ (q : ℚ) (e : Expr), 0 ≤ q ∧ m = [(1, .num q)] ∧ evaluate O n info d weight inhom z sol1 m w = some e ∧ hasX e = false ∧
      ∀ (ξ : ℝ → ℝ) (ρ : String → ℝ), ξ 1 = q → ∀ (N : ℕ) (ζ : ℝ → ℝ), val ζ ρ n e N = val ξ ρ n w N := by
  have hm : ∃ q : ℚ, 0 ≤ q ∧ m = [(1, .num q)] := by
    simp only [RecState.checkICs, hty, RecState.checkFunctional, hd] at hacc
    split_ifs at hacc with hl
    simp only [Nat.add_one_sub_one, ne_eq, not_not] at hl
    match m, hl with
    | [(i, v)], _ =>
      simp only [RecState.funLoop, Nat.add_one_sub_one] at hacc
      split_ifs at hacc with hi
      simp only [ne_eq, not_not] at hi
      cases v with
      | num q =>
        simp only at hacc
        split_ifs at hacc with hq
        exact ⟨q, not_lt.1 hq, by rw [hi]⟩
      | _ => simp at hacc
  obtain ⟨q, hq, rfl⟩ := hm
  have honly : Verify.hasOnlyIC n w = true := shape_onlyIC n (by rintro q rfl; simp) hsh
  by_cases hic : hasIC n w = false
  · have hx : hasX w = false := by simpa [hasIC, honly] using hic
    refine ⟨q, w, hq, rfl, by simp [evaluate, hic], hx, fun ξ ρ _ N ζ => ?_⟩
    unfold val
    rw [← NonLinear.withX_real ζ, ← NonLinear.withX_real ξ, eval_noX _ ζ ξ _ hx]
  · have hval : getIC [(1, Expr.num q)] 1 = .num q := by simp [getIC]
    have hsh2 : Shape B (fun _ => False) (substitute (xAt 1) (.num q) w) := by
      refine shape_substitute (by simp [Shape]) (by simp [xAt]) (by simp [xAt]) ?_ hsh
      rintro q rfl h
      exact absurd (by simp [xAt]) h
    refine ⟨q, substitute (xAt 1) (.num q) w, hq, rfl, ?_, shape_hasX hsh2, fun ξ ρ h1 N ζ => ?_⟩
    · simp [evaluate, hic, hty, functional, hd, hval]
    · unfold val
      rw [← NonLinear.withX_real ζ, ← NonLinear.withX_real ξ, eval_noX _ ζ ξ _ (shape_hasX hsh2)]
      refine subst_same (s := xAt 1) (r := .num q) (P := fun _ => True) (by simp [xAt]) ?_ (by simp) hsh _ trivial
      intro _ ρ _
      rw [xAt, eval_x]
      simp [eval, h1]

theorem hasX_initialTerm (n : String) (t : Ty) (c : ℕ) {a : ℚ} (ha : 0 < a) (b : ℚ) : hasX (initialTerm n t c a b) = true := by
  by_contra hx
  have hx : hasX (initialTerm n t c a b) = false := by simpa using hx
  have h1 : val (fun _ => 1) (fun _ => 0) n (initialTerm n t c a b) 1 = val (fun _ => 1 / 2) (fun _ => 0) n (initialTerm n t c a b) 1 := by
    unfold val
    rw [← NonLinear.withX_real (fun _ => 1), ← NonLinear.withX_real (fun _ => 1 / 2), eval_noX _ (fun _ => 1) (fun _ => 1 / 2) _ hx]
  have h2 := NonLinear.val_initialTerm_scale (fun _ => 1) 2 (fun _ => 0) n t c a b 1
  rw [← h1] at h2
  have h3 : val (fun _ => 1) (fun _ => 0) n (initialTerm n t c a b) 1 = 0 := by linarith
  unfold initialTerm val at h3
  simp only at h3
  rw [eval_mulE, Bounds.ev_pow, Bounds.ev_num] at h3
  have ha' : (0 : ℝ) < a := by exact_mod_cast ha
  have := (Real.rpow_pos_of_pos ha' (eval (realInterp fun _ => 1) (update (fun _ => 0) n ((1 : ℕ) : ℝ))
    (if (a < 1 ∧ t = .upper) ∨ (1 < a ∧ t = .lower) then subE (fracLog n b) (.num 1) else fracLog n b))).ne'
  rcases mul_eq_zero.1 h3 with h3 | h3
  · exact this h3
  · simp [eval, realInterp, realFn] at h3

/-- The bounds of `x(n) = a x(n/2)` have the form required by `C124_divisor_two_partial`. -/
theorem C124_nonvacuous (n : String) (t : Ty) (a : ℚ) (ha : 0 < a) (cmp : Expr → Expr → Bounds.Cmp) (S : Bounds.Sums) :
    ∃ w, approximate n cmp S t (.num a) 2 (.num 0) [] 0 = some w ∧ Shape (fun _ => False) (fun q => q = 1) w ∧ hasX w = true := by
  have h := NonLinear.approx_hom n cmp S t (b := 2) 0 ha le_rfl
  rw [NonLinear.addE_zero] at h
  refine ⟨_, by exact_mod_cast h, ?_, ?_⟩
  · unfold initialTerm
    have hf : Shape (fun _ => False) (fun q => q = 1) (fracLog n 2) := by
      unfold fracLog WeightedAvg.divE Bounds.lnE
      exact shape_mulE (by simp [Shape]) (shape_powE (by simp [Shape]) (by simp [Shape]))
    refine shape_mulE (shape_powE (by simp [Shape]) ?_) (by simp [Shape])
    split_ifs
    · exact shape_addE hf (shape_mulE (by simp [Shape]) (by simp [Shape]))
    · exact hf
  · exact hasX_initialTerm n t 0 ha 2

/-- **C124.**  For `x(n) = 2 x(n/3)` the map `x(1) = 1, x(2) = 5` is accepted, and the bounds evaluated on it are the symbolic
ones: they still contain `x`, and their value depends on it. -/
theorem C124_divisor_three_refuted (n : String) (t : Ty) (O : Ops) (d : NLData) (weight inhom : Expr) (z : ℕ) (sol1 : Expr)
    (cmp : Expr → Expr → Bounds.Cmp) (S : Bounds.Sums) (first order : ℕ) :
    RecState.checkICs { ty := .functional, order, first, divisor := 3 } [(1, .num 1), (2, .num 5)] = .accepted ∧
    ∃ w, approximate n cmp S t (.num 2) 3 (.num 0) [] 0 = some w ∧
      evaluate O n { ty := .functional, order, first, divisor := 3 } d weight inhom z sol1 [(1, .num 1), (2, .num 5)] w = some w ∧
      hasX w = true := by
  have h := NonLinear.approx_hom n cmp S t (a := 2) (b := 3) 0 (by norm_num) (by norm_num)
  rw [NonLinear.addE_zero] at h
  refine ⟨by simp [RecState.checkICs, RecState.checkFunctional, RecState.funLoop]; norm_num, _, by exact_mod_cast h, ?_, ?_⟩
  · unfold evaluate
    split_ifs with hi
    · rfl
    · simp [functional]
  · exact hasX_initialTerm n t 0 (by norm_num) _

end Purrs.OnIC
