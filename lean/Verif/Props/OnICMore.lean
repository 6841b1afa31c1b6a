import Verif.Props.OnIC
import Verif.Props.NonLinear

/-!
# Initial conditions: accepted but not sufficient, non-linear recurrences, weighted averages (C115-C118)
-/

set_option linter.unusedSectionVars false

namespace Purrs.OnIC

open Function (update update_of_ne update_self update_comm)
open OrderRed (withX eval_x eval_noX SolvesAt IsSolution)
open Verify (xAt getIC maxIC)
open NonLinear (substX logE RealLog logOf logSum xflat Related eval_substX related_exponent C105_linearization xflat_powE rewritePow realLogInterp realLogInterp_ok)
open WeightedAvg (WA rewriteWA computeWA SolvesWA WAAt Regular x0ok rewriteWA_spec shiftN eval_substN)

/-! ### C115: two initial conditions below `first + order - 1` -/

section
variable {K : Type} [Field K] [CharZero K] {I : Interp K}

/-- `3 x(n-1) - 2 x(n-2) + 1/(n-4) - 3/(n-5) + 2/(n-6)`: defined for `n ≥ 7`, so that the first valid index is 5. -/
def shortRhs : Expr :=
  .add [.mul [.num 3, .fn .x [.add [.sym "n", .num (-1)]]], .mul [.num (-2), .fn .x [.add [.sym "n", .num (-2)]]],
    .pow (.add [.sym "n", .num (-4)]) (.num (-1)), .mul [.num (-3), .pow (.add [.sym "n", .num (-5)]) (.num (-1))],
    .mul [.num 2, .pow (.add [.sym "n", .num (-6)]) (.num (-1))]]

/-- Its solution `2 x(5) - x(6) - 3/2 + 2^(n-5) (x(6) - x(5) + 1/2) + 1/(n-4)`. -/
def shortSol : Expr :=
  .add [.mul [.num 2, xAt 5], .mul [.num (-1), xAt 6], .num (-3 / 2),
    .mul [.pow (.num 2) (.add [.sym "n", .num (-5)]), .add [xAt 6, .mul [.num (-1), xAt 5], .num (1 / 2)]],
    .pow (.add [.sym "n", .num (-4)]) (.num (-1))]

/-- What the classification finds. -/
def shortInfo : Info := { ty := .linConst, order := 2, first := 5, divisor := 0 }

theorem short_solution (ρ : String → ℚ) : IsSolution ratInterp "n" shortRhs ρ shortSol 5 2 := by
  intro X hX N hN
  have hX' : ∀ M : ℕ, X ((M + 7 : ℕ) : ℚ) = 3 * X ((M + 6 : ℕ) : ℚ) - 2 * X ((M + 5 : ℕ) : ℚ) + 1 / (M + 3) - 3 / (M + 2) + 2 / (M + 1) := by
    intro M
    rw [hX (M + 7) (by omega)]
    have e1 : ((M + 7 : ℕ) : ℚ) + (-1 : ℚ) = ((M + 6 : ℕ) : ℚ) := by push_cast; ring
    have e2 : ((M + 7 : ℕ) : ℚ) + (-2 : ℚ) = ((M + 5 : ℕ) : ℚ) := by push_cast; ring
    have e3 : ((M + 7 : ℕ) : ℚ) + (-4 : ℚ) = M + 3 := by push_cast; ring
    have e4 : ((M + 7 : ℕ) : ℚ) + (-5 : ℚ) = M + 2 := by push_cast; ring
    have e5 : ((M + 7 : ℕ) : ℚ) + (-6 : ℚ) = M + 1 := by push_cast; ring
    simp only [shortRhs, eval, withX, ratInterp, List.map_cons, List.map_nil, List.sum_cons, List.sum_nil, List.prod_cons, List.prod_nil,
      update_self, Rat.cast_neg, Rat.cast_ofNat, Rat.cast_one, add_zero, mul_one, e1, e2, e3, e4, e5]
    norm_num
    ring
  have h1 : ∀ M : ℕ, X ((M + 5 : ℕ) : ℚ) = 2 * X 5 - X 6 - 3 / 2 + 2 ^ M * (X 6 - X 5 + 1 / 2) + 1 / (M + 1) ∧
      X ((M + 6 : ℕ) : ℚ) = 2 * X 5 - X 6 - 3 / 2 + 2 ^ (M + 1) * (X 6 - X 5 + 1 / 2) + 1 / (M + 2) := by
    intro M
    induction M with
    | zero =>
      norm_num
      constructor <;> ring
    | succ M ih =>
      refine ⟨?_, ?_⟩
      · rw [show M + 1 + 5 = M + 6 by omega, ih.2]
        push_cast
        ring
      · rw [show M + 1 + 6 = M + 7 by omega, hX' M, ih.1, ih.2]
        have h1 : (M : ℚ) + 1 ≠ 0 := by positivity
        have h2 : (M : ℚ) + 2 ≠ 0 := by positivity
        have h3 : (M : ℚ) + 3 ≠ 0 := by positivity
        have h4 : ((M + 1 : ℕ) : ℚ) + 2 = M + 3 := by push_cast; ring
        rw [h4, pow_succ, pow_succ]
        field_simp
        ring
  obtain ⟨M, rfl⟩ := Nat.exists_eq_add_of_le hN
  rw [show 5 + M = M + 5 by omega, (h1 M).1]
  have e3 : ((M + 5 : ℕ) : ℚ) + (-4 : ℚ) = M + 1 := by push_cast; ring
  have e4 : ((M + 5 : ℕ) : ℚ) + (-5 : ℚ) = M := by push_cast; ring
  simp only [shortSol, xAt, eval, withX, ratInterp, List.map_cons, List.map_nil, List.sum_cons, List.sum_nil, List.prod_cons, List.prod_nil,
      update_self, Rat.cast_neg, Rat.cast_ofNat, Rat.cast_one, add_zero, mul_one, e3, e4]
  norm_num
  ring

/-- **C115** is false: for a recurrence of order 2 and first valid index 5 the initial conditions `x(4) = 1`, `x(5) = 1` are
accepted, but `x(6)` stays in the solution: its value at `n = 6` is whatever `x(6)` is. -/
theorem C115_short_refuted (O : Ops) (hO : O.simp = id) (ρ : String → ℚ) :
    RecState.checkICs shortInfo [(4, .num 1), (5, .num 1)] = .accepted ∧
    IsSolution ratInterp "n" shortRhs ρ shortSol shortInfo.first shortInfo.order ∧
    ∃ e, linear O "n" shortInfo.first shortInfo.order [(4, .num 1), (5, .num 1)] shortSol = some e ∧
      ∀ Y : ℚ → ℚ, eval (withX ratInterp Y) (update ρ "n" 6) e = Y 6 := by
  refine ⟨by decide, short_solution ρ, substAll [(4, .num 1), (5, .num 1)] shortSol, ?_, ?_⟩
  · simp [linear, RecState.largestKey, shortInfo, hO]
  · intro Y
    have hsh : Shape (fun _ => False) (fun q => q = 5 ∨ q = 6) shortSol := by simp [shortSol, xAt, Shape]
    obtain ⟨h1, h2⟩ := substAll_val (I := ratInterp) (n := "n") (X := update Y 5 1) (ρ := ρ) [(4, .num 1), (5, .num 1)] hsh
      (by
        intro p hp
        have : p.2 = .num 1 := by
          simp only [List.mem_cons, List.not_mem_nil, or_false] at hp
          rcases hp with rfl | rfl <;> rfl
        rw [this]
        exact ⟨by simp [Shape], by intro Y ρ t v _; simp [eval]⟩)
      (by
        intro p hp hS
        simp only [List.mem_cons, List.not_mem_nil, or_false] at hp
        rcases hp with rfl | rfl
        · norm_num at hS
        · simp [eval])
    have h3 := h2 6
    have h4 : eval (withX ratInterp (update Y 5 1)) (update ρ "n" 6) (substAll [(4, .num 1), (5, .num 1)] shortSol)
        = eval (withX ratInterp Y) (update ρ "n" 6) (substAll [(4, .num 1), (5, .num 1)] shortSol) := by
      refine eval_shape (B := fun _ => False) (S := fun q => q = 6) ?_ ?_ _
      · refine shape_mono ?_ h1
        rintro q ⟨rfl | rfl, h⟩
        · exact absurd rfl (h (5, .num 1) (by simp))
        · rfl
      · rintro q rfl
        exact update_of_ne (by norm_num) _ _
    rw [← h4, h3]
    simp only [shortSol, xAt, eval, withX, ratInterp, List.map_cons, List.map_nil, List.sum_cons, List.sum_nil, List.prod_cons, List.prod_nil,
      update_self, Rat.cast_neg, Rat.cast_ofNat, Rat.cast_one, add_zero, mul_one]
    norm_num
    ring

end

/-! ### C116: non-linear recurrences -/

theorem shape_xflat {B : String → Prop} {S : ℚ → Prop} {e : Expr} (h : Shape B S e) : xflat e = true := by
  induction e using Expr.ind with
  | num q => simp [xflat]
  | const q => simp [xflat]
  | sym s => simp [xflat]
  | add l ih => simp only [Shape] at h; simp [xflat]; exact fun a ha => ih a ha (h a ha)
  | mul l ih => simp only [Shape] at h; simp [xflat]; exact fun a ha => ih a ha (h a ha)
  | pow b e hb he => simp only [Shape] at h; simp [xflat, hb h.1, he h.2]
  | fn f l ih =>
    rw [Shape] at h
    by_cases hf : f = .x
    · obtain ⟨q, rfl, hq⟩ := h.1 hf
      simp [xflat, hf, hasX]
    · simp [xflat, hf]
      exact fun a ha => ih a ha (h.2 a ha)
  | binder k i a b c hi ha hb hc =>
    simp only [Shape] at h
    obtain ⟨⟨t, rfl, ht⟩, h1, h2, h3⟩ := h
    simp [xflat, NonLinear.isSym, ha h1, hb h2, hc h3]

section
variable {I : Interp ℝ} (hI : RealLog I)
include hI

/-- **C116** (what the code guarantees).  Let `lin` be the linear recurrence satisfied by the logarithms, to the base `κ`, of a positive
sequence that satisfies the recurrence (C105; see the two corollaries below), and let `linSol` be the solution of
the linear recurrence and `sol` the one of the given recurrence (for positive sequences).  If the initial conditions are positive, the
last `k` at the consecutive indices `j, …, j+k-1`, `f ≤ j`, then the expression computed has at all `N ≥ j` the values of the sequence that
satisfies the recurrence from `j + k` on and takes the given values.  Missing from the full property: an initial condition
equal to zero (refuted below). -/
theorem C116_positive_partial {O : Ops} {n : String} {B : String → Prop} (hnB : ¬ B n) {d : NLData} (hc : d.coeffSimple = 0)
    (hF : Fresh I O n B d.linSol) {f k j : ℕ} (hk0 : 0 < k) (hj : f ≤ j)
    (hsh : Shape B (fun q => ∃ i < k, q = ((f + i : ℕ) : ℚ)) d.linSol) (hL : LsolveOk I O n B)
    {sol : Expr} (hsh' : j = f → Shape B (fun q => ∃ i < k, q = ((f + i : ℕ) : ℚ)) sol)
    {pre suf : ICMap} (hkeys : suf.map Prod.fst = (List.range k).map (j + ·)) (hpre : ∀ p ∈ pre, p.1 < j)
    (hv : ∀ p ∈ pre ++ suf, Value I n B (fun t => ∃ i, t = O.fresh i) p.2) {rhs lin : Expr} {ρ : String → ℝ}
    {κ : ℝ} (hκ : 0 < κ) (hκ1 : κ ≠ 1) (hbs : Shape B (fun _ => False) d.base)
    (hb : ∀ (Y : ℝ → ℝ) (ρ : String → ℝ), eval (withX I Y) ρ d.base = κ)
    (hk : OrderAtMost I n lin ρ f k) (hls : IsSolution I n lin ρ d.linSol f k)
    (hs : j = f → ∀ X : ℝ → ℝ, (∀ v, 0 < X v) → SolvesAt I n rhs ρ X (f + k) → ∀ N : ℕ, f ≤ N → eval (withX I X) (update ρ n N) sol = X N)
    (hans : f < j → O.lsolve (equations n k (pre ++ suf) (fun v => logE d.base v) (abstractIC O f k d.linSol)) ((List.range k).map O.fresh) ≠ none)
    {e : Expr} (he : nonLinear O n f k d (pre ++ suf) sol = some e)
    (hsimp : ∀ a, O.simp a = e → ∀ (N : ℕ) Y, eval (withX I Y) (update ρ n N) e = eval (withX I Y) (update ρ n N) a)
    (hsimpLog : ∀ a (N : ℕ) Y, O.simp (O.simpLog a) = e → eval (withX I Y) (update ρ n N) (O.simpLog a) = eval (withX I Y) (update ρ n N) a)
    {X : ℝ → ℝ} (hXpos : ∀ v, 0 < X v)
    (hlin : SolvesAt I n rhs ρ X (j + k) → SolvesAt I n lin ρ (logOf κ X) (j + k))
    (hX : SolvesAt I n rhs ρ X (j + k)) (hXv : ∀ p ∈ suf, X (p.1 : ℝ) = eval (withX I X) ρ p.2) :
    ∀ N : ℕ, j ≤ N → ∀ Y, eval (withX I Y) (update ρ n N) e = X N := by
  obtain ⟨k', rfl⟩ := Nat.exists_eq_succ_of_ne_zero hk0.ne'
  simp only [Nat.succ_eq_add_one] at *
  have hsuf : suf ≠ [] := by rintro rfl; simp [List.range_succ] at hkeys
  obtain ⟨ini, p, hp⟩ : ∃ ini p, suf = ini ++ [p] := ⟨suf.dropLast, suf.getLast hsuf, (List.dropLast_append_getLast hsuf).symm⟩
  have hlast : (pre ++ suf).getLast? = some p := by rw [hp]; simp
  have hpmem : p ∈ suf := by rw [hp]; simp
  have hpk : p.1 = j + k' := by
    rw [hp, List.range_succ, List.map_append, List.map_append] at hkeys
    simpa using (List.append_inj' hkeys rfl).2
  have hz : lastIsZero (k' + 1) (pre ++ suf) = false := by
    rw [lastIsZero, hlast]
    simp only [Option.map_some, Option.some.injEq, Bool.and_eq_false_iff, decide_eq_false_iff_not]
    refine Or.inr fun h0 => ?_
    have := hXv p hpmem
    rw [h0] at this
    simp only [eval, Rat.cast_zero] at this
    have := hXpos (p.1 : ℝ)
    linarith
  rw [nonLinear, hlast] at he
  dsimp only at he
  rw [hz] at he
  simp only [Bool.false_eq_true, if_false] at he
  intro N hN Y
  by_cases hbr : f + (k' + 1) ≤ p.1
  · rw [if_pos hbr, if_neg (by simp [hc])] at he
    obtain ⟨s, hs1, rfl⟩ := Option.map_eq_some_iff.mp he
    have hlog : ∀ (Z : ℝ → ℝ) (ρ : String → ℝ) (v : Expr), eval (withX I Z) ρ (logE d.base v)
        = I.fn .log [eval (withX I Z) ρ v] * (Real.log κ)⁻¹ := by
      intro Z ρ v
      rw [logE, eval_mulE, eval_powE]
      have h2 := (withX I Z).pw_int (Real.log κ) (-1)
      simp only [eval, List.map_cons, List.map_nil, NonLinear.fn_log]
      rw [hb, hI.log _ hκ]
      congr 1
      simpa using h2
    obtain ⟨hss, hsv⟩ := bySystem_val (I := I) hnB hF hj hsh hL hkeys
      (val := fun v => logE d.base v)
      (fun q hq => ⟨shape_mulE (by simpa [Shape] using (hv q (by simp [hq])).shape)
          (shape_powE (by simpa [Shape] using hbs) (by simp [Shape])), fun Z σ t v ht => by
            rw [hlog, hlog, (hv q (by simp [hq])).indep Z σ t v ht]⟩)
      hk hls (hans (by omega)) (hlin hX) (by
        intro q hq
        rw [hlog, eval_noX I _ X _ (shape_hasX (hv q (by simp [hq])).shape), ← hXv q hq, hI.log _ (hXpos _), logOf, div_eq_mul_inv])
      hs1
    rw [hsimp _ rfl, hsimpLog _ _ _ rfl]
    rw [eval_substX I d.base .argumentLog (fun v => I.fn .log [Y v] * I.pw (I.fn .log [κ]) (-1)) Y (fun v ρ => by rw [hb]) _
      (xflat_powE (shape_xflat hbs) (shape_xflat hss)), eval_powE, hsv N hN, hb]
    have := related_exponent hI hκ hκ1 hb hXpos N ρ
    rw [hb] at this
    exact this
  · rw [if_neg hbr] at he
    have hjf : j = f := by omega
    subst hjf
    replace hsh' := hsh' rfl
    replace hs := hs rfl
    simp only [Option.some.injEq] at he
    subst he
    rw [hsimp _ rfl]
    have hmem : ∀ i < k' + 1, ∃ p ∈ suf, p.1 = j + i := by
      intro i hi
      have : j + i ∈ suf.map Prod.fst := by
        rw [hkeys]; exact List.mem_map.mpr ⟨i, by simpa using hi, rfl⟩
      obtain ⟨p, hp, h⟩ := List.mem_map.mp this
      exact ⟨p, hp, h⟩
    obtain ⟨h1, h2⟩ := substAll_val (I := I) (n := n) (X := X) (ρ := ρ) (pre ++ suf) hsh'
      (fun p hp => ⟨(hv p hp).shape, fun Y σ t v ht => (hv p hp).indep Y σ t v (by rcases ht with h | h | h; exacts [Or.inl h, Or.inr (Or.inl h), h.elim])⟩)
      (by
        intro p hp ⟨i, hi, h⟩
        rcases List.mem_append.mp hp with hp | hp
        · have := hpre p hp
          have h' : p.1 = j + i := by exact_mod_cast h
          omega
        · exact hXv p hp)
    rw [eval_noX I Y X _ (shape_hasX (shape_mono ?_ h1)), h2, hs X hXpos hX N hN]
    rintro q ⟨⟨i, hi, rfl⟩, h⟩
    obtain ⟨p, hp, hpe⟩ := hmem i hi
    exact h p (by simp [hp]) (by rw [hpe])

end

section
variable {I : Interp ℝ} (hI : RealLog I)
include hI

/-- The linearisation of a product, as the code builds it. -/
theorem C116_product_partial (n : String) (ρ : String → ℝ) (l : List Expr) (hx : xflat (.mul l) = true)
    (hce : 0 < NonLinear.commonExponent l) (X : ℝ → ℝ) (hX : ∀ v, 0 < X v) (start : ℕ)
    (hpos : ∀ N : ℕ, start ≤ N → ∀ g ∈ factors (substX (NonLinear.rewriteMul l).base .exponent (.mul l)),
      ∀ Y, 0 < eval (withX I Y) (update ρ n (N : ℝ)) g) :
    ∃ κ : ℝ, 0 < κ ∧ κ ≠ 1 ∧ (∀ (Y : ℝ → ℝ) (ρ : String → ℝ), eval (withX I Y) ρ (NonLinear.rewriteMul l).base = κ) ∧
      (SolvesAt I n (.mul l) ρ X start → SolvesAt I n (NonLinear.rewriteMul l).rhs ρ (logOf κ X) start) := by
  by_cases h1 : NonLinear.commonExponent l = 1
  · have hb : NonLinear.rewriteMul l = ⟨0, .const "Napier", logSum (.const "Napier") true
        (substX (.const "Napier") .exponent (.mul l))⟩ := by simp [NonLinear.rewriteMul, h1]
    rw [hb] at hpos ⊢
    have hk : ∀ (Y : ℝ → ℝ) (ρ : String → ℝ), eval (withX I Y) ρ (.const "Napier") = Real.exp 1 := by
      intro Y ρ; rw [← hI.napier]; simp [eval, withX]
    exact ⟨Real.exp 1, Real.exp_pos 1, by simp, hk, (C105_linearization hI n ρ (.mul l) _ true hx (Real.exp_pos 1) (by simp) (fun _ => rfl) hk X hX start
      fun M hM g hg => hpos M hM g hg _).mp⟩
  · have hb : NonLinear.rewriteMul l = ⟨0, .num (NonLinear.commonExponent l), logSum (.num (NonLinear.commonExponent l)) false
        (substX (.num (NonLinear.commonExponent l)) .exponent (.mul l))⟩ := by simp [NonLinear.rewriteMul, h1, abs_of_pos hce]
    rw [hb] at hpos ⊢
    have hk : ∀ (Y : ℝ → ℝ) (ρ : String → ℝ), eval (withX I Y) ρ (.num (NonLinear.commonExponent l)) = (NonLinear.commonExponent l : ℝ) := by
      intro Y ρ; simp [eval]
    have hκ : (0 : ℝ) < (NonLinear.commonExponent l : ℝ) := by exact_mod_cast hce
    have hκ1 : (NonLinear.commonExponent l : ℝ) ≠ 1 := by exact_mod_cast h1
    exact ⟨_, hκ, hκ1, hk, (C105_linearization hI n ρ (.mul l) _ false hx hκ hκ1 (by simp) hk X hX start
      fun M hM g hg => hpos M hM g hg _).mp⟩

/-- The linearisation of a power `x(n-d)^a` with `a > 0`, as the code builds it. -/
theorem C116_power_partial (n : String) (ρ : String → ℝ) {a : ℚ} (ha : 0 < a) (ha1 : a ≠ 1) {arg : Expr} (harg : hasX arg = false)
    (X : ℝ → ℝ) (hX : ∀ v, 0 < X v) (start : ℕ) :
    SolvesAt I n (.pow (.fn .x [arg]) (.num a)) ρ X start → SolvesAt I n (rewritePow a arg).rhs ρ (logOf (a : ℝ) X) start := by
  intro h N hN
  have h' := h N hN
  have e1 : eval (withX I X) (update ρ n (N : ℝ)) (.pow (.fn .x [arg]) (.num a)) = X (eval (withX I X) (update ρ n (N : ℝ)) arg) ^ (a : ℝ) := by
    rw [eval, eval_x, eval]
    exact hI.pw _ _ (hX _)
  rw [rewritePow, eval_mulE, eval_x, eval_noX I _ X arg harg, logOf, h', e1, Real.log_rpow (hX _)]
  simp only [eval, logOf]
  ring

end

/-- `x(n-2)^3`. -/
def cubeRhs : Expr := .pow (.fn .x [.add [.sym "n", .num (-2)]]) (.num 3)

theorem cube_order {K : Type} [Field K] [CharZero K] (I : Interp K) (ρ : String → K) : OrderAtMost I "n" cubeRhs ρ 0 2 := by
  intro N hN X Y h
  obtain ⟨M, rfl⟩ := Nat.exists_eq_add_of_le hN
  have e : ∀ Z : K → K, eval (withX I Z) (update ρ "n" ((0 + 2 + M : ℕ) : K)) cubeRhs = I.pw (Z M) 3 := by
    intro Z
    simp [cubeRhs, eval, withX]
  rw [e, e, h M (by omega) (by omega)]

/-- **C116** is false: for `x(n) = x(n-2)^3` the initial conditions `x(0) = 2`, `x(1) = 0` are accepted and the solution computed is
`0`, because the last initial condition is zero; but `x(2) = 8`. -/
theorem C116_zero_refuted (O : Ops) (d : NLData) (sol : Expr) {K : Type} [Field K] [CharZero K] (I : Interp K) (ρ : String → K) :
    RecState.checkICs { ty := .nonLinear, order := 2, first := 0, divisor := 0 } [(0, .num 2), (1, .num 0)] = .accepted ∧
    nonLinear O "n" 0 2 d [(0, .num 2), (1, .num 0)] sol = some (.num 0) ∧
    (∃ X : K → K, SolvesAt I "n" cubeRhs ρ X 2 ∧ X 0 = 2 ∧ X 1 = 0) ∧
    ∀ X : K → K, SolvesAt I "n" cubeRhs ρ X 2 → X 0 = 2 → X 1 = 0 → X 2 = 8 := by
  refine ⟨?_, by simp [nonLinear, lastIsZero], ?_, ?_⟩
  · simp [RecState.checkICs, RecState.checkFinite, RecState.largestKey, RecState.consecLoop, RecState.subU32, RecState.isNegNum]
  · obtain ⟨X, h1, h2⟩ := forward_exists (cube_order I ρ) fun i => if i = 0 then 2 else 0
    refine ⟨X, h1, ?_, ?_⟩
    · simpa using h2 0 (by omega)
    · simpa using h2 1 (by omega)
  · intro X hX h0 _
    have h := hX 2 le_rfl
    have e : eval (withX I X) (update ρ "n" ((2 : ℕ) : K)) cubeRhs = I.pw (X 0) 3 := by
      simp [cubeRhs, eval, withX]
    rw [e, h0] at h
    have h3 := I.pw_int (2 : K) 3
    simp only [Int.cast_ofNat] at h3
    rw [h3] at h
    norm_num at h
    exact h

/-- A solver that answers whenever there is an answer. -/
noncomputable def idealOps {K : Type} [Field K] [CharZero K] (I : Interp K) (n : String) (B : String → Prop) : Ops :=
  open Classical in
  { lsolve := fun eqs us => if h : ∃ vals, Answer I n B eqs us vals then some h.choose else none
    fresh := exFresh
    simp := id
    simpLog := id }

theorem ideal_lsolve {K : Type} [Field K] [CharZero K] (I : Interp K) (n : String) (B : String → Prop) : LsolveOk I (idealOps I n B) n B := by
  classical
  intro eqs us vals h _
  simp only [idealOps] at h
  split at h
  · rename_i h'
    simp only [Option.some.injEq] at h
    rw [← h]
    exact h'.choose_spec
  · cases h

theorem ideal_answers {K : Type} [Field K] [CharZero K] {I : Interp K} {n : String} {B : String → Prop} {eqs : List (Expr × Expr)} {us : List String}
    {vals : List Expr} (h : Answer I n B eqs us vals) : (idealOps I n B).lsolve eqs us ≠ none := by
  classical
  simp only [idealOps]
  rw [dif_pos ⟨vals, h⟩]
  simp

section
variable {I : Interp ℝ} (hI : RealLog I)

theorem fam_shape : Shape (fun _ => False) (fun q => ∃ i < 1, q = ((0 + i : ℕ) : ℚ)) (NonLinear.famSol 2 2) := by
  have h : Shape (fun _ => False) (fun q => ∃ i < 1, q = ((0 + i : ℕ) : ℚ)) (logE (.num 2) (.sym "a")) :=
    shape_mulE (by simp [Shape]) (shape_powE (by simp [Shape]) (by simp [Shape]))
  simp only [NonLinear.famSol, Shape, List.mem_cons, List.not_mem_nil, or_false, forall_eq_or_imp, forall_eq, h]
  simp

theorem fam_order (ρ : String → ℝ) : OrderAtMost I "n" (logSum (.num 2) false (substX (.num 2) .exponent (.mul (NonLinear.famL 2)))) ρ 0 1 := by
  intro N hN X Y h
  obtain ⟨M, rfl⟩ := Nat.exists_eq_add_of_le hN
  have e : (((0 + 1 + M : ℕ) : ℝ) + (-1 + 0)) = M := by push_cast; ring
  have hx : substX (.num 2) .exponent (.mul (NonLinear.famL 2))
      = .mul [.pow (.pow (.num 2) (.fn .x [.add [.sym "n", .num (-1)]])) (.num 2), .sym "a"] := by
    simp [NonLinear.famL, substX, NonLinear.xTo, powE, mulE]
  rw [hx]
  simp only [logSum, factors, List.foldr_cons, List.foldr_nil, Bool.false_eq_true, if_false, logE, eval_addE, eval_mulE, eval_powE, eval, List.map_cons,
    List.map_nil, List.sum_cons, List.sum_nil, update_self, Rat.cast_neg, Rat.cast_one, e]
  simp only [withX]
  rw [h M (by omega) (by omega)]

theorem fam_answer : Answer I "n" (fun _ => False)
    (equations "n" 1 ([] ++ [(1, .num 4)]) (fun v => logE (.num 2) v) (abstractIC (idealOps I "n" fun _ => False) 0 1 (NonLinear.famSol 2 2)))
    ((List.range 1).map (idealOps I "n" fun _ => False).fresh)
    [.mul [.num (1 / 2), .add [logE (.num 2) (.num 4), .mul [.num (-1), logE (.num 2) (.sym "a")]]]] where
  len := rfl
  shape := by
    intro v hv
    simp only [List.mem_singleton] at hv
    subst hv
    have h : ∀ a, Shape (fun _ => False) (fun _ => False) a → Shape (fun _ => False) (fun _ => False) (logE (.num 2) a) := fun a ha =>
      shape_mulE (by simp [Shape, ha]) (shape_powE (by simp [Shape]) (by simp [Shape]))
    simp only [Shape, List.mem_cons, List.not_mem_nil, or_false, forall_eq_or_imp, forall_eq]
    exact ⟨trivial, h _ (by simp [Shape]), trivial, h _ (by simp [Shape])⟩
  indep := by
    intro v hv Y ρ t w ht
    simp only [List.mem_singleton] at hv
    subst hv
    have hta : "a" ≠ t := by
      rintro rfl
      rcases ht with h | h | h
      · exact h
      · exact absurd h (by decide)
      · simp [idealOps, exFresh_zero, List.range_succ] at h
    have h : ∀ a, eval (withX I Y) (update ρ t w) a = eval (withX I Y) ρ a →
        eval (withX I Y) (update ρ t w) (logE (.num 2) a) = eval (withX I Y) ρ (logE (.num 2) a) := by
      intro a ha
      simp only [logE, eval_mulE, eval_powE, eval, List.map_cons, List.map_nil, ha]
    simp only [eval, List.map_cons, List.map_nil]
    rw [h (.num 4) (by simp [eval]), h (.sym "a") (by simp [eval, update_of_ne hta])]
  sat := by
    intro Y ρ σ h1 h2 p hp
    rw [equations, List.nil_append, show lastICs 1 [(1, Expr.num 4)] = [(1, Expr.num 4)] from rfl] at hp
    simp only [List.map_cons, List.map_nil, List.mem_singleton] at hp
    subst hp
    simp only
    have hu := h2 ("u", _) (by
      simp only [idealOps, List.range_succ, List.range_zero, List.nil_append, List.map_cons, List.map_nil, List.zip_cons_cons, List.zip_nil_right, exFresh_zero]
      exact List.mem_singleton.mpr rfl)
    have ha : σ "a" = ρ "a" := h1 "a" (by simp [idealOps, exFresh_zero, List.range_succ])
    obtain ⟨hs1, hs2⟩ := abstract_val (I := I) (O := idealOps I "n" fun _ => False) (B := fun _ => False) (by simp) (fun _ => σ "u") 0 1 fam_shape
    have hs0 : Shape (fun _ => False) (fun _ => False) (abstractIC (idealOps I "n" fun _ => False) 0 1 (NonLinear.famSol 2 2)) := by
      refine shape_mono ?_ hs1
      rintro q ⟨⟨i, hi, rfl⟩, h⟩
      exact h i hi rfl
    rw [subst_sym (by simp) (by intro _ _ _ _; simp [eval]) hs0, eval_noX I Y (fun _ => σ "u") _ (shape_hasX hs0), hs2 _ ?_]
    · have hl : ∀ (Z : ℝ → ℝ) (τ : String → ℝ) a, eval (withX I Z) τ (logE (.num 2) a) = I.fn .log [eval (withX I Z) τ a] * I.pw (I.fn .log [2]) (-1) := by
        intro Z τ a
        simp only [logE, eval_mulE, eval_powE, eval, List.map_cons, List.map_nil]
        norm_num [withX]
      simp only [NonLinear.famSol, eval, List.map_cons, List.map_nil, List.sum_cons, List.sum_nil, List.prod_cons, List.prod_nil, update_self, hl] at hu ⊢
      rw [update_of_ne (show "a" ≠ "n" by decide), ha, hu]
      have h21 := I.pw_int (2 : ℝ) 1
      norm_num at h21
      norm_num [withX, h21]
      ring
    · intro i hi
      have : i = 0 := by omega
      subst this
      rw [show (idealOps I "n" fun _ => False).fresh 0 = "u" from rfl, update_of_ne (by decide)]

include hI

/-- **C116**, a concrete case: for `x(n) = a x(n-1)^2` with `x(1) = 4` all hypotheses hold (with a solver that answers whenever there is
an answer), so the expression computed has the values of every positive sequence satisfying the recurrence from 2 on with `x(1) = 4`;
for `a = 1` there is one, `2^(2^n)`. -/
theorem C116_nonvacuous (sol : Expr) :
    (∀ (ρ : String → ℝ) (X : ℝ → ℝ), 0 < ρ "a" → (∀ v, 0 < X v) → SolvesAt I "n" (.mul (NonLinear.famL 2)) ρ X 2 → X 1 = 4 →
      ∃ e, nonLinear (idealOps I "n" fun _ => False) "n" 0 1 ⟨0, .num 2, NonLinear.famSol 2 2⟩ [(1, .num 4)] sol = some e ∧
        ∀ N : ℕ, 1 ≤ N → ∀ Y, eval (withX I Y) (update ρ "n" N) e = X N) ∧
    ∃ X : ℝ → ℝ, (∀ v, 0 < X v) ∧ SolvesAt I "n" (.mul (NonLinear.famL 2)) (fun _ => 1) X 2 ∧ X 1 = 4 := by
  constructor
  · intro ρ X hρ hpos hX h4
    have hcomp : ∃ e, nonLinear (idealOps I "n" fun _ => False) "n" 0 1 ⟨0, .num 2, NonLinear.famSol 2 2⟩ ([] ++ [(1, .num 4)]) sol = some e := by
      simp [nonLinear, lastIsZero, bySystem]
    obtain ⟨e, he⟩ := hcomp
    refine ⟨e, he, ?_⟩
    have hF : Fresh I (idealOps I "n" fun _ => False) "n" (fun _ => False) (NonLinear.famSol 2 2) := by
      have hsc : ∀ i s, s = "n" ∨ s = "a" → s ≠ exFresh i := by
        rintro i s (rfl | rfl) h
        · have h1 := congrArg String.toList h
          simp [exFresh] at h1
        · have h1 := congrArg String.toList h
          simp [exFresh] at h1
      refine ⟨exFresh_inj, fun i h => hsc i "n" (Or.inl rfl) h.symm, by simp, fun i => ?_⟩
      have h1 := hsc i "n" (Or.inl rfl)
      have h2 := hsc i "a" (Or.inr rfl)
      show isScalarRep (exFresh i) _ = true
      simp [NonLinear.famSol, isScalarRep, logE, mulE, powE, h1, h2, show ¬ (-1 : ℚ) = 1 by norm_num]
    have hsuf : ∀ p ∈ ([] ++ [(1, Expr.num 4)] : ICMap), Value I "n" (fun _ => False) (fun t => ∃ i, t = (idealOps I "n" fun _ => False).fresh i) p.2 := by
      intro p hp
      simp only [List.nil_append, List.mem_singleton] at hp
      subst hp
      exact ⟨by simp [Shape], by intro Y ρ t v _; simp [eval]⟩
    have hb : ∀ (Y : ℝ → ℝ) (ρ : String → ℝ), eval (withX I Y) ρ (.num 2) = (2 : ℝ) := by intro Y ρ; simp [eval]
    refine C116_positive_partial hI (B := fun _ => False) (by simp) (d := ⟨0, .num 2, NonLinear.famSol 2 2⟩) rfl hF (by norm_num) (by norm_num) fam_shape
      (ideal_lsolve I "n" fun _ => False) (by simp) (by simp) (by simp) hsuf (rhs := .mul (NonLinear.famL 2)) (by norm_num) (by norm_num) (by simp [Shape]) hb
      (fam_order ρ) ?_ (by simp) (fun _ => ideal_answers fam_answer) he (fun a ha N Y => by rw [← ha]; rfl) (fun a N Y _ => rfl) hpos ?_ hX ?_
    · have := NonLinear.fam_isSolution hI (q := 2) (b := 2) (by norm_num) (by norm_num) (by norm_num) ρ hρ
      exact this
    · refine (C105_linearization hI "n" ρ (.mul (NonLinear.famL 2)) (.num 2) false (by simp [NonLinear.famL, xflat, hasX]) (by norm_num) (by norm_num) (by simp) hb X hpos _ ?_).mp
      intro N hN
      have hv : (0 : ℝ) < (N : ℝ) := by exact_mod_cast (by omega : 0 < N)
      rw [NonLinear.famL, substX]
      exact NonLinear.factors_mulE_pos _ _ (NonLinear.factors_mulE_pos _ _ (by simp [factors, eval])
        (NonLinear.goodFactor_pos hI (by norm_num) (by simp) hb _ hv (.xpow _ _))) (NonLinear.goodFactor_pos hI (by norm_num) (by simp) hb _ hv (.sym hρ))
    · intro p hp
      simp only [List.mem_singleton] at hp
      subst hp
      simp [eval, h4]
  · refine ⟨fun v => (2 : ℝ) ^ (2 ^ ⌊v⌋₊), fun v => by positivity, ?_, by norm_num⟩
    intro N hN
    obtain ⟨M, rfl⟩ : ∃ M, N = M + 1 := ⟨N - 1, by omega⟩
    simp only [NonLinear.famL, eval, List.map_cons, List.map_nil, List.sum_cons, List.sum_nil, List.prod_cons, List.prod_nil, update_self]
    rw [update_of_ne (by decide)]
    show (2 : ℝ) ^ (2 ^ ⌊((M + 1 : ℕ) : ℝ)⌋₊) = 1 * (I.pw ((2 : ℝ) ^ (2 ^ ⌊(((M + 1 : ℕ) : ℝ) + ((((-1 : ℚ)) : ℝ) + 0))⌋₊)) _ * 1)
    have : (((M + 1 : ℕ) : ℝ) + ((((-1 : ℚ)) : ℝ) + 0)) = M := by push_cast; ring
    rw [this, Nat.floor_natCast, Nat.floor_natCast, hI.pw _ _ (by positivity)]
    push_cast
    rw [show (2 : ℝ) = ((2 : ℕ) : ℝ) by norm_num, Real.rpow_natCast, ← pow_mul, one_mul, mul_one, pow_succ]

end

/-! ### C117, C118: weighted averages -/

section
variable {K : Type} [Field K] [CharZero K] {I : Interp K}

theorem shape_computeWA {B : String → Prop} {n : String} (hnB : ¬ B n) {w g : Expr} {M z : ℕ} {wa : WA} {sol1 : Expr}
    (hw : Shape B (fun _ => False) w) (hg : Shape B (fun _ => False) g) (hs : Shape B (fun q => q = 0) sol1)
    (hwa : rewriteWA n false M w g z = some wa) (hm1 : wa.weight ≠ .num (-1)) :
    Shape B (fun q => q = (M : ℚ)) (computeWA n wa sol1) := by
  obtain ⟨s1, s2, s3, s4, s5, s6, s7, -, -⟩ := rewriteWA_spec (by simp) hwa
  have hne : ∀ t, B t → Expr.sym n ≠ .sym t := by intro t ht h; cases h; exact hnB ht
  have hsub : ∀ {S : ℚ → Prop} {r e : Expr}, Shape B S r → Shape B S e → Shape B S (substitute (.sym n) r e) :=
    fun hr he => shape_substitute hr (by simp) hne (fun q hq _ => hq) he
  have hwo : Shape B (fun _ => False) wa.origWeight := by rw [s1]; simpa [WeightedAvg.upperStep] using hw
  have hgo : Shape B (fun _ => False) wa.origInhom := by rw [s2]; simpa [WeightedAvg.upperStep] using hg
  have hF : ∀ {S : ℚ → Prop} {e : Expr}, Shape B (fun _ => False) e → Shape B S e := fun h => shape_mono (fun _ h => h.elim) h
  have hws : Shape B (fun _ => False) (if wa.rewritten then wa.origWeight else wa.weight) := by
    by_cases h : wa.rewritten = true
    · rw [if_pos h]; exact hwo
    · rw [if_neg h, (s4 (by simpa using h)).2.1]; exact hwo
  have hgs : Shape B (fun _ => False) (if wa.rewritten then wa.origInhom else wa.inhom) := by
    by_cases h : wa.rewritten = true
    · rw [if_pos h]; exact hgo
    · rw [if_neg h, (s4 (by simpa using h)).2.2]; exact hgo
  have hlo : (if wa.rewritten then wa.lower else 0) = M := by
    by_cases h : wa.rewritten = true
    · rw [if_pos h, s3]
    · rw [if_neg h, (s4 (by simpa using h)).1]
  rw [computeWA, if_neg hm1]
  dsimp only
  rw [hlo]
  refine shape_substitute (S := fun q => q = 0) ?_ (by simp) (by simp) ?_ ?_
  · refine hsub (by simp [Shape]) (shape_addE (shape_mulE (hF hws) ?_) (hF hgs))
    simp [Shape]
  · rintro q rfl h
    exact absurd rfl h
  · refine hsub ?_ hs
    rw [shiftN]
    exact shape_addE (by simp [Shape]) (by simp [Shape])

/-- **C117.**  A weighted-average recurrence `x(n) = f(n) sum(k, n_0, n-1, x(k)) + g(n)` with initial conditions, `M` the largest index
of them.  If `M > n_0`, the expression computed has at all `N > M` the values of the sequence with the given value at `M` that satisfies
the recurrence in which the sum starts at `M`; no symbolic initial condition is left. -/
theorem C117_sum_from_last {B : String → Prop} {n : String} (hnB : ¬ B n) {first z : ℕ} {w g sol sol1 : Expr} {m : ICMap}
    (hM : first < maxIC m) {ρ : String → K} (hr : Regular I n ρ w g (maxIC m) false)
    (hw : Shape B (fun _ => False) w) (hg : Shape B (fun _ => False) g) (hs1 : Shape B (fun q => q = 0) sol1)
    (hw1 : ∀ wa, rewriteWA n false (maxIC m) w g z = some wa → wa.weight ≠ .num (-1))
    (hsol : ∀ r, r = substitute (.sym n) (.num ((maxIC m : ℚ) + 1)) (addE (mulE w (.fn .x [.num (maxIC m)])) g) → x0ok n r sol1 = true)
    (hfirst : ∀ wa, rewriteWA n false (maxIC m) w g z = some wa → IsSolution I n wa.rhsFirst ρ sol1 0 1)
    (hv : Value I n B (fun _ => False) (getIC m (maxIC m))) {e : Expr} (he : weighted n first w g z sol1 m sol = some e)
    {X : K → K} (hX : SolvesWA I n ρ w g (maxIC m) false X) (hXv : X (maxIC m : K) = eval (withX I X) ρ (getIC m (maxIC m))) :
    ∀ N : ℕ, maxIC m < N → ∀ Y, eval (withX I Y) (update ρ n N) e = X N := by
  rw [weighted, if_pos hM] at he
  obtain ⟨wa, hwa, rfl⟩ := Option.map_eq_some_iff.mp he
  obtain ⟨s1, s2, -, -, -, -, -, -, -⟩ := rewriteWA_spec (by simp) hwa
  have hsh := shape_computeWA hnB hw hg hs1 hwa (hw1 wa hwa)
  intro N hN Y
  have hsh2 : Shape B (fun _ => False) (substitute (xAt (maxIC m)) (getIC m (maxIC m)) (computeWA n wa sol1)) := by
    refine shape_substitute hv.shape (by simp [xAt]) (by simp [xAt]) ?_ hsh
    rintro q rfl h
    exact h rfl
  rw [eval_noX I Y X _ (shape_hasX hsh2)]
  rw [subst_same (P := fun σ => eval (withX I X) σ (getIC m (maxIC m)) = eval (withX I X) ρ (getIC m (maxIC m))) (by simp [xAt]) ?_ ?_ hsh _ ?_]
  · refine WeightedAvg.C106_solution_partial hr hwa (hw1 wa hwa) ?_ (hfirst wa hwa) X hX N hN
    rintro r rfl
    refine hsol _ ?_
    rw [s1, s2]
    simp [WeightedAvg.upperStep]
  · intro _ σ hσ
    rw [hσ, ← hXv, xAt, eval_x]
    simp [eval]
  · intro σ t v ht hσ
    rw [hv.indep X σ t v (Or.inl ht), hσ]
  · rw [hv.indep X ρ n _ (Or.inr (Or.inl rfl))]

/-- **C117**, the initial condition at the lower limit: it is put into the symbolic solution. -/
theorem C117_first {B : String → Prop} {n : String} {first z : ℕ} {w g sol sol1 : Expr} {m : ICMap} (hM : maxIC m = first)
    {ρ : String → K} (hsh : Shape B (fun q => q = (first : ℚ)) sol)
    {up : Bool} (hsol : ∀ X : K → K, SolvesWA I n ρ w g first up X → ∀ N : ℕ, first < N → eval (withX I X) (update ρ n N) sol = X N)
    (hv : Value I n B (fun _ => False) (getIC m first)) {e : Expr} (he : weighted n first w g z sol1 m sol = some e)
    {X : K → K} (hX : SolvesWA I n ρ w g first up X) (hXv : X (first : K) = eval (withX I X) ρ (getIC m first)) :
    ∀ N : ℕ, first < N → ∀ Y, eval (withX I Y) (update ρ n N) e = X N := by
  rw [weighted, if_neg (by omega)] at he
  simp only [Option.some.injEq] at he
  subst he
  intro N hN Y
  have hsh2 : Shape B (fun _ => False) (substitute (xAt first) (getIC m first) sol) := by
    refine shape_substitute hv.shape (by simp [xAt]) (by simp [xAt]) ?_ hsh
    rintro q rfl h
    exact h rfl
  rw [eval_noX I Y X _ (shape_hasX hsh2)]
  rw [subst_same (P := fun σ => eval (withX I X) σ (getIC m first) = eval (withX I X) ρ (getIC m first)) (by simp [xAt]) ?_ ?_ hsh _ ?_]
  · exact hsol X hX N hN
  · intro _ σ hσ
    rw [hσ, ← hXv, xAt, eval_x]
    simp [eval]
  · intro σ t v ht hσ
    rw [hv.indep X σ t v (Or.inl ht), hσ]
  · rw [hv.indep X ρ n _ (Or.inr (Or.inl rfl))]

end

/-! The recurrence `x(n) = sum(k, 0, n-1, x(k))` with `x(2) = 4`. -/

theorem sum_rewrite : ∃ wa, rewriteWA "n" false 2 (.num 1) (.num 0) 0 = some wa ∧ wa.weight = .num 1 ∧ wa.rhsFirst = exRhs := by
  refine ⟨_, rfl, ?_, ?_⟩
  · simp [WeightedAvg.upperStep, substitute]
  · simp [WeightedAvg.upperStep, substitute, WeightedAvg.firstOrderRhs, WeightedAvg.divE, mulE, powE, subE, negE, addE, shiftN, exRhs]
    norm_num [mulE]

theorem sum_regular (ρ : String → ℚ) : Regular ratInterp "n" ρ (.num 1) (.num 0) 2 false where
  idxw := by simp [OrderRed.idxNe]
  idxg := by simp [OrderRed.idxNe]
  xw := by simp [hasX]
  xg := by simp [hasX]
  one := by simp
  ne0 := by simp [eval]
  ne1 := by simp

/-- The sequence `4, 4, 8, 16, …` from index 2 on. -/
noncomputable def sumSeq (a : ℚ) : ℚ → ℚ := fun v => if v ≤ a then 4 else 4 * 2 ^ (v - a - 1).num

theorem sumSeq_solves (ρ : String → ℚ) (a : ℕ) : SolvesWA ratInterp "n" ρ (.num 1) (.num 0) a false (sumSeq a) := by
  have hv : ∀ j : ℕ, sumSeq a ((a + 1 + j : ℕ) : ℚ) = 4 * 2 ^ j := by
    intro j
    have h : ¬ ((a + 1 + j : ℕ) : ℚ) ≤ a := by push_cast; have : (0 : ℚ) ≤ j := Nat.cast_nonneg j; linarith
    have e : (((a + 1 + j : ℕ) : ℚ) - a - 1) = ((j : ℤ) : ℚ) := by push_cast; ring
    rw [sumSeq, if_neg h, e, Rat.num_intCast, zpow_natCast]
  have hs : ∀ j : ℕ, ∑ k ∈ Finset.Icc a (a + j), sumSeq a (k : ℚ) = 4 * 2 ^ j := by
    intro j
    induction j with
    | zero => simp [sumSeq]
    | succ j ih =>
      rw [show a + (j + 1) = (a + j) + 1 by omega, Finset.sum_Icc_succ_top (by omega), ih, show a + j + 1 = a + 1 + j by omega, hv]
      ring
  intro N hN
  obtain ⟨j, rfl⟩ := Nat.exists_eq_add_of_le (Nat.succ_le_of_lt hN)
  unfold WAAt
  simp only [Bool.false_eq_true, if_false, eval, Rat.cast_one, Rat.cast_zero, one_mul, add_zero, Nat.succ_eq_add_one]
  rw [hv, show a + 1 + j - 1 = a + j by omega, hs]

/-- **C117**, a concrete case: for `x(n) = sum(k, 0, n-1, x(k))` with `x(2) = 4` all hypotheses hold and the solution computed is
`4 * 2^(n-3)`, the sequence in which the sum starts at 2. -/
theorem C117_nonvacuous (ρ : String → ℚ) (sol : Expr) :
    ∃ e, weighted "n" 0 (.num 1) (.num 0) 0 exSol [(2, .num 4)] sol = some e ∧
      (∀ N : ℕ, 2 < N → ∀ Y, eval (withX ratInterp Y) (update ρ "n" N) e = sumSeq 2 N) ∧
      SolvesWA ratInterp "n" ρ (.num 1) (.num 0) 2 false (sumSeq 2) ∧ sumSeq 2 2 = 4 := by
  obtain ⟨wa, h1, h2, h3⟩ := sum_rewrite
  have hM : maxIC [(2, Expr.num 4)] = 2 := rfl
  have hG : getIC [(2, Expr.num 4)] 2 = .num 4 := rfl
  have he : ∃ e, weighted "n" 0 (.num 1) (.num 0) 0 exSol [(2, .num 4)] sol = some e := by
    rw [weighted, hM, if_pos (by norm_num), h1]
    exact ⟨_, rfl⟩
  obtain ⟨e, he⟩ := he
  refine ⟨e, he, ?_, by exact_mod_cast sumSeq_solves ρ 2, by simp [sumSeq]⟩
  have key := C117_sum_from_last (I := ratInterp) (B := fun _ => False) (by simp) (m := [(2, .num 4)]) (by rw [hM]; norm_num) (by rw [hM]; exact sum_regular ρ)
    (by simp [Shape]) (by simp [Shape]) (by simp [exSol, xAt, Shape])
    (by
      intro wa' h
      rw [hM, h1] at h
      cases h
      rw [h2]
      norm_num)
    (by
      intro r _
      simp [exSol, xAt, x0ok])
    (by
      intro wa' h
      rw [hM, h1] at h
      cases h
      rw [h3]
      exact ex_solution ρ)
    (by rw [hM, hG]; exact ⟨by simp [Shape], by intro Y ρ t v _; simp [eval]⟩) he (X := sumSeq 2)
    (by rw [hM]; exact_mod_cast sumSeq_solves ρ 2) (by rw [hM, hG]; norm_num [eval, sumSeq])
  rw [hM] at key
  exact key

/-- **C118** is false: the sequence that satisfies `x(n) = sum(k, 0, n-1, x(k))` for all `n ≥ 1` and has `x(2) = 4` (there is one) has `x(3) = 8`, but
the value of the solution computed at `n = 3` is 4. -/
theorem C118_later_index_refuted (ρ : String → ℚ) (sol : Expr) :
    RecState.checkICs { ty := .weighted, order := 1, first := 0, divisor := 0 } [(2, .num 4)] = .accepted ∧
    (∃ e, weighted "n" 0 (.num 1) (.num 0) 0 exSol [(2, .num 4)] sol = some e ∧ ∀ Y, eval (withX ratInterp Y) (update ρ "n" ((3 : ℕ) : ℚ)) e = 4) ∧
    (∃ X : ℚ → ℚ, SolvesWA ratInterp "n" ρ (.num 1) (.num 0) 0 false X ∧ X 2 = 4) ∧
    ∀ X : ℚ → ℚ, SolvesWA ratInterp "n" ρ (.num 1) (.num 0) 0 false X → X 2 = 4 → X 3 = 8 := by
  refine ⟨by decide, ?_, ?_, ?_⟩
  · obtain ⟨e, h1, h2, -, -⟩ := C117_nonvacuous ρ sol
    refine ⟨e, h1, fun Y => ?_⟩
    rw [h2 3 (by norm_num)]
    norm_num [sumSeq]
  · refine ⟨fun v => sumSeq 0 v / 2, ?_, by norm_num [sumSeq]⟩
    intro N hN
    have h := sumSeq_solves ρ 0 N hN
    unfold WAAt at h ⊢
    simp only [Bool.false_eq_true, if_false, eval, Rat.cast_one, Rat.cast_zero, one_mul, add_zero, Nat.cast_zero] at h ⊢
    rw [h, Finset.sum_div]
  · intro X hX h2
    have e1 := hX 1 (by norm_num)
    have e2 := hX 2 (by norm_num)
    have e3 := hX 3 (by norm_num)
    unfold WAAt at e1 e2 e3
    simp only [Bool.false_eq_true, if_false, eval, Rat.cast_one, Rat.cast_zero, one_mul, add_zero] at e1 e2 e3
    norm_num [Finset.sum_Icc_succ_top] at e1 e2 e3
    linarith

/-- **C118** holds when the initial condition is at the lower limit of the sum. -/
theorem C118_first_partial {K : Type} [Field K] [CharZero K] {I : Interp K} {B : String → Prop} {n : String} {first z : ℕ} {w g sol sol1 : Expr}
    {m : ICMap} (hM : maxIC m = first) {ρ : String → K} (hsh : Shape B (fun q => q = (first : ℚ)) sol)
    {up : Bool} (hsol : ∀ X : K → K, SolvesWA I n ρ w g first up X → ∀ N : ℕ, first < N → eval (withX I X) (update ρ n N) sol = X N)
    (hv : Value I n B (fun _ => False) (getIC m first)) {e : Expr} (he : weighted n first w g z sol1 m sol = some e)
    {X : K → K} (hX : SolvesWA I n ρ w g first up X) (hXv : X (first : K) = eval (withX I X) ρ (getIC m first)) :
    ∀ N : ℕ, first < N → ∀ Y, eval (withX I Y) (update ρ n N) e = X N :=
  C117_first hM hsh hsol hv he hX hXv

end Purrs.OnIC
