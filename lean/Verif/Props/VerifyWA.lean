import Verif.Props.VerifyRefuted
import Verif.Props.Eliminate
import Verif.Props.BoundsRefuted

/-!
# C41: verification of weighted-average recurrences; C72: verification of bounds; C73: an accepted candidate
-/

set_option linter.unusedSectionVars false

namespace Purrs.Verify

open Purrs Purrs.OrderRed Purrs.WeightedAvg
open Function (update update_of_ne update_self update_comm)
open Finset (Icc)

section
variable {K : Type} [Field K] [CharZero K] (I : Interp K)

/-- A transformation of expressions keeps the values at all `n ≥ start`. -/
def KeepsVal (n : String) (ρ : String → K) (start : ℕ) (f : Expr → Expr) : Prop :=
  ∀ (X : K → K) (e : Expr), idxNe n e = true → ∀ m : ℕ, start ≤ m →
    eval (withX I X) (update ρ n m) (f e) = eval (withX I X) (update ρ n m) e

/-- `sum(k, a, b, f(k))` is the sum of the `f(k)` for `a ≤ k ≤ b`. -/
def SumMeaning : Prop :=
  ∀ (f : K → K) (a b : ℕ), a ≤ b → I.bind .sum (a : K) (b : K) f = ∑ k ∈ Icc a b, f k

/-- The weight that is used by the verification: that of the recurrence with upper limit `n - 1`. -/
def waWeight (wa : WA) : Expr := if wa.rewritten then wa.origWeight else wa.weight

/-- The inhomogeneous term that is used by the verification. -/
def waInhom (wa : WA) : Expr := if wa.rewritten then wa.origInhom else wa.inhom

/-- The lower limit that is used by the verification. -/
def waLower (wa : WA) (ics : List (ℕ × Expr)) : ℕ := max (if wa.rewritten then wa.lower else 0) (maxIC ics)

variable {I}

/-- Renaming `n` to a new symbol `h`. -/
theorem eval_subst_new (J : Interp K) {n h : String} (hh : h ≠ n) {e : Expr} (hn : idxNe n e = true) (hi : idxNe h e = true)
    (hs : has (.sym h) e = false) (ρ : String → K) (v : K) :
    eval J (update ρ h v) (substitute (.sym n) (.sym h) e) = eval J (update ρ n v) e := by
  rw [C100_capture_free_partial]
  · rw [show eval J (update ρ h v) (.sym h) = v by simp [eval], update_comm hh, Eliminate.eval_noSym J h v e hs]
  · induction e using Expr.ind with
    | num q => simp [CaptureFree]
    | const q => simp [CaptureFree]
    | sym s => simp [CaptureFree]
    | add l ih =>
      simp [idxNe] at hn hi; simp [has] at hs; simp [CaptureFree]
      exact fun a ha => ih a ha (hn a ha) (hi a ha) (hs a ha)
    | mul l ih =>
      simp [idxNe] at hn hi; simp [has] at hs; simp [CaptureFree]
      exact fun a ha => ih a ha (hn a ha) (hi a ha) (hs a ha)
    | pow b e hb he =>
      simp [idxNe] at hn hi; simp [has] at hs; simp [CaptureFree]
      exact ⟨hb hn.1 hi.1 hs.1, he hn.2 hi.2 hs.2⟩
    | fn f l ih =>
      simp [idxNe] at hn hi; simp [has] at hs; simp [CaptureFree]
      exact fun a ha => ih a ha (hn a ha) (hi a ha) (hs a ha)
    | binder k i a b c hii ha hb hc =>
      cases i with
      | sym t =>
        simp [idxNe] at hn hi
        simp [has] at hs
        simp only [CaptureFree]
        refine ⟨ha hn.1.1.2 hi.1.1.2 hs.1.1.2, hb hn.1.2 hi.1.2 hs.1.2, hc hn.2 hi.2 hs.2, t, rfl, hn.1.1.1, fun ρ w => ?_⟩
        simp only [eval]
        exact update_of_ne (fun h' => hi.1.1.1 h'.symm) _ _
      | _ => simp [idxNe] at hn

/-- **C41**.  When the weight is not `-1`, a positive verdict means that the candidate satisfies the recurrence
`x(n) = f(n) (h + sum(k, n_0 + 1, n - 1, x(k))) + g(n)` for all `n > n_0`, where `h` is the initial condition `x(n_0)`. -/
theorem C41_recurrence_partial {O : Oracle} {n h : String} {wa : WA} {ics : List (ℕ × Expr)} {sol : Expr} {ρ : String → K}
    (hw : waWeight wa ≠ .num (-1)) (hhn : h ≠ n) (hsum : SumMeaning I)
    (hsimp : KeepsVal I n ρ (waLower wa ics + 2) O.simp) (hcs : KeepsVal I n ρ (waLower wa ics + 2) O.computeSum)
    (hcsi : ∀ e, idxNe n e = true → idxNe n (O.computeSum e) = true)
    (hwi : idxNe n (waWeight wa) = true) (hgi : idxNe n (waInhom wa) = true) (hci : idxNe n (getIC ics (waLower wa ics)) = true)
    (hsn : idxNe n sol = true) (hsh : idxNe h sol = true) (hnew : has (.sym h) sol = false)
    (hv : verifyWA O n h wa ics sol = .correct) (X : K → K) (N : ℕ) (hN : waLower wa ics < N) :
    eval (withX I X) (update ρ n N) sol = eval (withX I X) (update ρ n N) (waWeight wa) *
        (eval (withX I X) (update ρ n N) (getIC ics (waLower wa ics)) +
          ∑ k ∈ Icc (waLower wa ics + 1) (N - 1), eval (withX I X) (update ρ n k) sol) +
      eval (withX I X) (update ρ n N) (waInhom wa) := by
  have hv : (if waWeight wa = .num (-1) then Verdict.correct
    else if O.simp (substitute (.sym n) (.num (((waLower wa ics : ℕ) : ℚ) + 1)) sol) ≠
      substitute (.sym n) (.num (((waLower wa ics : ℕ) : ℚ) + 1)) (addE (mulE (waWeight wa) (getIC ics (waLower wa ics))) (waInhom wa))
      then Verdict.inconclusive
    else if O.simp (subE (subE (subE sol (mulE (waWeight wa) (getIC ics (waLower wa ics)))) (mulE (waWeight wa)
        (O.computeSum (.binder .sum (.sym h) (.num (((waLower wa ics : ℕ) : ℚ) + 1)) (shiftN n (-1)) (substitute (.sym n) (.sym h) sol)))))
        (waInhom wa)) = .num 0 then Verdict.correct else .inconclusive) = .correct := by
    simpa [verifyWA, waWeight, waInhom, waLower] using hv
  rw [if_neg hw] at hv
  generalize hL : waLower wa ics = L at *
  generalize waWeight wa = w at *
  generalize waInhom wa = g at *
  generalize getIC ics L = c at *
  split_ifs at hv with h1 h2
  push Not at h1
  have hnum : ∀ (e : Expr), idxNe n e = true → ∀ m : K,
      eval (withX I X) (update ρ n m) (substitute (.sym n) (.num ((L : ℚ) + 1)) e)
        = eval (withX I X) (update ρ n ((L + 1 : ℕ) : K)) e := by
    intro e he m
    rw [eval_substN _ (by intro ρ s v _; simp [eval]) he]
    simp [eval]
  rcases Nat.lt_or_ge N (L + 2) with hlt | hge
  · obtain rfl : N = L + 1 := by omega
    have h3 := hsimp X _ (idxNe_substN (by simp [idxNe]) hsn : idxNe n (substitute (.sym n) (.num ((L : ℚ) + 1)) sol) = true) (L + 2) le_rfl
    rw [h1, hnum _ (idxNe_addE (idxNe_mulE hwi hci) hgi), hnum _ hsn, eval_addE, eval_mulE] at h3
    rw [← h3]
    simp
  · have hb : idxNe n (.binder .sum (.sym h) (.num ((L : ℚ) + 1)) (shiftN n (-1)) (substitute (.sym n) (.sym h) sol)) = true := by
      have e1 := idxNe_shiftN n (-1)
      have e2 : idxNe n (substitute (.sym n) (.sym h) sol) = true := idxNe_substN (by simp [idxNe]) hsn
      simp [idxNe, hhn, e1, e2]
    have h3 := hsimp X _ (idxNe_subE (idxNe_subE (idxNe_subE hsn (idxNe_mulE hwi hci)) (idxNe_mulE hwi (hcsi _ hb))) hgi) N hge
    rw [h2, eval_subE, eval_subE, eval_subE, eval_mulE, eval_mulE, hcs X _ hb N hge] at h3
    have h4 : eval (withX I X) (update ρ n (N : K)) (.binder .sum (.sym h) (.num ((L : ℚ) + 1)) (shiftN n (-1)) (substitute (.sym n) (.sym h) sol))
        = ∑ k ∈ Icc (L + 1) (N - 1), eval (withX I X) (update ρ n k) sol := by
      rw [eval, eval_shiftN]
      have e1 : eval (withX I X) (update ρ n (N : K)) (.num ((L : ℚ) + 1)) = ((L + 1 : ℕ) : K) := by simp [eval]
      have e2 : update ρ n (N : K) n + ((-1 : ℚ) : K) = ((N - 1 : ℕ) : K) := by
        rw [update_self]
        have : 1 ≤ N := by omega
        push_cast [this]; ring
      have e3 : ∀ f, (withX I X).bind .sum ((L + 1 : ℕ) : K) ((N - 1 : ℕ) : K) f = ∑ k ∈ Icc (L + 1) (N - 1), f k :=
        fun f => hsum f _ _ (by omega)
      rw [e1, e2, e3]
      refine Finset.sum_congr rfl fun k _ => ?_
      simp only [bindIdx]
      rw [eval_subst_new _ hhn hsn hsh hnew]
      simp
    rw [h4] at h3
    have h0 : eval (withX I X) (update ρ n (N : K)) (.num 0) = 0 := by simp [eval]
    rw [h0] at h3
    linear_combination -h3

/-- **C41**.  When the weight is not `-1`, a positive verdict means that the candidate has the value of every sequence that
satisfies the recurrence and has the initial condition `x(n_0)`. -/
theorem C41_solution_partial {O : Oracle} {n h : String} {wa : WA} {ics : List (ℕ × Expr)} {sol : Expr} {ρ : String → K}
    (hw : waWeight wa ≠ .num (-1)) (hhn : h ≠ n) (hsum : SumMeaning I)
    (hsimp : KeepsVal I n ρ (waLower wa ics + 2) O.simp) (hcs : KeepsVal I n ρ (waLower wa ics + 2) O.computeSum)
    (hcsi : ∀ e, idxNe n e = true → idxNe n (O.computeSum e) = true)
    (hwi : idxNe n (waWeight wa) = true) (hgi : idxNe n (waInhom wa) = true) (hci : idxNe n (getIC ics (waLower wa ics)) = true)
    (hsn : idxNe n sol = true) (hsh : idxNe h sol = true) (hnew : has (.sym h) sol = false)
    (hv : verifyWA O n h wa ics sol = .correct) (X : K → K)
    (hX : SolvesWA I n ρ (waWeight wa) (waInhom wa) (waLower wa ics) false X)
    (hX0 : ∀ v : K, eval (withX I X) (update ρ n v) (getIC ics (waLower wa ics)) = X (waLower wa ics : K))
    (N : ℕ) (hN : waLower wa ics < N) : eval (withX I X) (update ρ n N) sol = X N := by
  have key := C41_recurrence_partial hw hhn hsum hsimp hcs hcsi hwi hgi hci hsn hsh hnew hv X
  induction N using Nat.strong_induction_on with
  | _ N ih =>
    rw [key N hN, hX N hN, hX0]
    simp only [Bool.false_eq_true, if_false]
    have hs : ∑ k ∈ Icc (waLower wa ics) (N - 1), X (k : K)
        = X (waLower wa ics : K) + ∑ k ∈ Icc (waLower wa ics + 1) (N - 1), X (k : K) := by
      rw [← Finset.insert_Icc_succ_left_eq_Icc (by omega : waLower wa ics ≤ N - 1), Finset.sum_insert (by simp)]
      rfl
    rw [hs]
    have : ∑ k ∈ Icc (waLower wa ics + 1) (N - 1), eval (withX I X) (update ρ n (k : K)) sol
        = ∑ k ∈ Icc (waLower wa ics + 1) (N - 1), X (k : K) := by
      refine Finset.sum_congr rfl fun k hk => ?_
      rw [Finset.mem_Icc] at hk
      exact ih k (by omega) (by omega)
    rw [this]

end

/-! ### Accepted right and wrong candidates -/

theorem sumMeaning_real : SumMeaning (realInterp 0) := by
  intro f a b hab
  show ∑ i ∈ Icc ⌈(a : ℝ)⌉ ⌊(b : ℝ)⌋, f i = _
  rw [Int.ceil_natCast, Int.floor_natCast]
  symm
  refine Finset.sum_bij (fun (k : ℕ) _ => (k : ℤ)) (fun k hk => ?_) (fun k _ l _ h => by exact_mod_cast h) (fun z hz => ?_)
    (fun k _ => by simp)
  · rw [Finset.mem_Icc] at hk ⊢; omega
  · rw [Finset.mem_Icc] at hz
    exact ⟨z.toNat, by rw [Finset.mem_Icc]; omega, by omega⟩

open Classical in
/-- A simplifier that finds every expression that vanishes for all `n ≥ start`. -/
noncomputable def zeroSimp (ρ : String → ℝ) (start : ℕ) (e : Expr) : Expr :=
  if ∀ (X : ℝ → ℝ) (m : ℕ), start ≤ m → eval (withX (realInterp 0) X) (update ρ "n" m) e = 0 then .num 0 else e

/-- The program with this simplifier. -/
noncomputable def zeroOracle (ρ : String → ℝ) (start : ℕ) : Oracle where
  simp := zeroSimp ρ start
  simpSum := id
  computeSum := id
  rw := id
  expand := id

theorem zeroSimp_keeps (ρ : String → ℝ) (start : ℕ) : KeepsVal (realInterp 0) "n" ρ start (zeroSimp ρ start) := by
  intro X e _ m hm
  unfold zeroSimp
  split_ifs with h
  · rw [h X m hm]; simp [eval]
  · rfl

theorem zeroSimp_zero {ρ : String → ℝ} {start : ℕ} {e : Expr}
    (h : ∀ (X : ℝ → ℝ) (m : ℕ), start ≤ m → eval (withX (realInterp 0) X) (update ρ "n" m) e = 0) :
    zeroSimp ρ start e = .num 0 := if_pos h

theorem zeroSimp_ne {ρ : String → ℝ} {start : ℕ} {e : Expr} (X : ℝ → ℝ)
    (h : eval (withX (realInterp 0) X) (update ρ "n" (start : ℝ)) e ≠ 0) : zeroSimp ρ start e = e :=
  if_neg fun h' => h (h' X start le_rfl)

/-- `2^(n - j) c`. -/
def doubling (j : ℕ) (c : Expr) : Expr := .mul [c, .pow (.num 2) (.add [.sym "n", .num (-(j : ℚ))])]

/-- What is known about `x(n) = sum(k, 0, n - 1, x(k))`. -/
def waSum : WA := ⟨.num 1, .num 0, .num 1, .num 0, 0, false, firstOrderRhs "n" (.num 1) (.num 0), 0⟩

theorem waSum_eq : rewriteWA "n" false 0 (.num 1) (.num 0) 0 = some waSum := by
  simp [rewriteWA, upperStep, waSum]

theorem eval_doubling (X : ℝ → ℝ) (ρ : String → ℝ) (j m : ℕ) (hm : j ≤ m) (c : Expr) :
    eval (withX (realInterp 0) X) (update ρ "n" (m : ℝ)) (doubling j c)
      = eval (withX (realInterp 0) X) (update ρ "n" (m : ℝ)) c * 2 ^ (m - j) := by
  have p : (withX (realInterp 0) X).pw 2 ((m - j : ℕ) : ℝ) = 2 ^ (m - j) := pw_nat _ _ _
  rw [Nat.cast_sub hm] at p
  simp only [doubling, eval, List.map_cons, List.map_nil, List.prod_cons, List.prod_nil, List.sum_cons, List.sum_nil,
    update_self, mul_one, add_zero]
  push_cast
  rw [← sub_eq_add_neg, p]

theorem sum_pow_two (L N : ℕ) (h : L + 1 ≤ N) : ∑ k ∈ Icc (L + 1) N, (2 : ℝ) ^ (k - (L + 1)) = 2 ^ (N - L) - 1 := by
  induction N, h using Nat.le_induction with
  | base => simp; norm_num
  | succ N h ih =>
    rw [Finset.sum_Icc_succ_top (by omega), ih, show N + 1 - (L + 1) = N - L by omega, show N + 1 - L = N - L + 1 by omega]
    ring

/-- The candidate `2^(n - L - 1) c`, for the initial condition `x(L) = c`, is accepted. -/
theorem doubling_verdict (ρ : String → ℝ) (L : ℕ) (c : Expr) (ics : List (ℕ × Expr)) (hL : maxIC ics = L) (hc : getIC ics L = c)
    (hshape : c = .num 1 ∨ c = xAt 0) :
    verifyWA (zeroOracle ρ (L + 2)) "n" "h" waSum ics (doubling (L + 1) c) = .correct := by
  have hcn : ∀ r, substitute (.sym "n") r c = c := by
    rcases hshape with rfl | rfl <;> simp [substitute, xAt]
  have hcv : ∀ (X : ℝ → ℝ) (r r' : String → ℝ), eval (withX (realInterp 0) X) r c = eval (withX (realInterp 0) X) r' c := by
    rcases hshape with rfl | rfl <;> simp [eval, xAt]
  have hc1 : eval (withX (realInterp 0) fun _ => 1) (update ρ "n" ((L + 2 : ℕ) : ℝ)) c ≠ 0 := by
    rcases hshape with rfl | rfl
    · simp [eval]
    · rw [xAt, eval_x]; simp
  have e1 : mulE (.num 1) c = c := by rcases hshape with rfl | rfl <;> simp [mulE, xAt]
  have e2 : addE c (.num 0) = c := by rcases hshape with rfl | rfl <;> simp [addE, xAt]
  have e3 : substitute (.sym "n") (.num ((L : ℚ) + 1)) (doubling (L + 1) c) = c := by
    have : powE (.num 2) (.num 0) = .num 1 := by simp [powE]
    have e4 : mulE (.num 1) (.num 1) = .num 1 := by simp [mulE]
    simp [doubling, substitute, hcn, addE, this, e4, e1]
  unfold verifyWA
  simp only [show waSum.rewritten = false from rfl, Bool.false_eq_true, if_false, show waSum.weight = .num 1 from rfl,
    show waSum.inhom = .num 0 from rfl, hL, Nat.zero_max, hc, e1, e2, e3, hcn]
  rw [if_neg (by simp; norm_num), if_neg, if_pos]
  · show zeroSimp ρ (L + 2) _ = _
    refine zeroSimp_zero fun X m hm => ?_
    have hb : eval (withX (realInterp 0) X) (update ρ "n" (m : ℝ))
        (.binder .sum (.sym "h") (.num ((L : ℚ) + 1)) (shiftN "n" (-1)) (substitute (.sym "n") (.sym "h") (doubling (L + 1) c)))
        = eval (withX (realInterp 0) X) (update ρ "n" (m : ℝ)) c * (2 ^ (m - 1 - L) - 1) := by
      rw [eval, eval_shiftN]
      have e1 : eval (withX (realInterp 0) X) (update ρ "n" (m : ℝ)) (.num ((L : ℚ) + 1)) = ((L + 1 : ℕ) : ℝ) := by simp [eval]
      have e2 : update ρ "n" (m : ℝ) "n" + ((-1 : ℚ) : ℝ) = ((m - 1 : ℕ) : ℝ) := by
        rw [update_self]
        have : 1 ≤ m := by omega
        push_cast [this]; ring
      have e3 : ∀ f, (withX (realInterp 0) X).bind .sum ((L + 1 : ℕ) : ℝ) ((m - 1 : ℕ) : ℝ) f = ∑ k ∈ Icc (L + 1) (m - 1), f k :=
        fun f => sumMeaning_real f _ _ (by omega)
      rw [e1, e2, e3, ← sum_pow_two L (m - 1) (by omega), Finset.mul_sum]
      refine Finset.sum_congr rfl fun k hk => ?_
      rw [Finset.mem_Icc] at hk
      simp only [bindIdx]
      rw [eval_subst_new _ (by simp) (by rcases hshape with rfl | rfl <;> simp [doubling, idxNe, xAt])
        (by rcases hshape with rfl | rfl <;> simp [doubling, idxNe, xAt])
        (by rcases hshape with rfl | rfl <;> simp [doubling, has, xAt]), eval_doubling _ _ _ _ hk.1]
      congr 1
      exact hcv X _ _
    show eval (withX (realInterp 0) X) (update ρ "n" (m : ℝ)) (subE (subE (subE (doubling (L + 1) c) c) (mulE (.num 1)
      (.binder .sum (.sym "h") (.num ((L : ℚ) + 1)) (shiftN "n" (-1)) (substitute (.sym "n") (.sym "h") (doubling (L + 1) c))))) (.num 0)) = 0
    rw [eval_subE, eval_subE, eval_subE, eval_mulE, hb, eval_doubling _ _ _ _ (by omega)]
    simp only [eval]
    rw [show m - 1 - L = m - (L + 1) by omega]
    push_cast; ring
  · push Not
    exact zeroSimp_ne (fun _ => 1) hc1

/-- The hypotheses of `C41_solution_partial` for the right solution `2^(n-1) x(0)` of `x(n) = sum(k, 0, n - 1, x(k))`. -/
example (ρ : String → ℝ) : rewriteWA "n" false 0 (.num 1) (.num 0) 0 = some waSum ∧ waWeight waSum ≠ .num (-1) ∧
    SumMeaning (realInterp 0) ∧ KeepsVal (realInterp 0) "n" ρ (waLower waSum [] + 2) (zeroOracle ρ 2).simp ∧
    KeepsVal (realInterp 0) "n" ρ (waLower waSum [] + 2) (zeroOracle ρ 2).computeSum ∧
    idxNe "n" (doubling 1 (xAt 0)) = true ∧ idxNe "h" (doubling 1 (xAt 0)) = true ∧ has (.sym "h") (doubling 1 (xAt 0)) = false ∧
    verifyWA (zeroOracle ρ 2) "n" "h" waSum [] (doubling 1 (xAt 0)) = .correct := by
  refine ⟨waSum_eq, by simp [waWeight, waSum]; norm_num, sumMeaning_real, zeroSimp_keeps ρ 2, fun _ _ _ _ _ => rfl, ?_, ?_, ?_,
    doubling_verdict ρ 0 (xAt 0) [] rfl (by simp [getIC, List.lookup]) (.inr rfl)⟩
  · simp [doubling, idxNe, xAt]
  · simp [doubling, idxNe, xAt]
  · simp [doubling, has, xAt]

/-- **C41 is false of the code** for the weight `-1`: nothing is checked.  For `x(n) = -sum(k, 1, n-1, x(k)) + n^2` the
solution that is computed, `2 n + 1`, is wrong everywhere and is `PROVABLY_CORRECT`. -/
theorem C41_minus_one_refuted : ∃ (wa : WA) (X : ℝ → ℝ),
    rewriteWA "n" false 1 (.num (-1)) gSq 0 = some wa ∧
    SolvesWA (realInterp 0) "n" (fun _ => 0) (.num (-1)) gSq 1 false X ∧
    ∀ (sol1 : Expr) (O : Oracle) (h : String), verifyWA O "n" h wa [] (computeWA "n" wa sol1) = .correct ∧
      ∀ N : ℕ, eval (withX (realInterp 0) X) (update (fun _ => 0) "n" (N : ℝ)) (computeWA "n" wa sol1) ≠ X (N : ℝ) := by
  obtain ⟨wa, X, h1, h2, h3⟩ := C106_minus_one_lower_refuted
  refine ⟨wa, X, h1, h2, fun sol1 O h => ⟨?_, h3 sol1⟩⟩
  have e : wa.rewritten = true ∧ wa.origWeight = .num (-1) := by
    have h1' := h1
    simp [rewriteWA, upperStep] at h1'
    rw [← h1']; simp
  simp [verifyWA, e.1, e.2]

/-- **C41 is false of the code** with an initial condition after the lower limit `n_0`: the terms from `n_0` to it are left out
of the sum.  For `x(n) = sum(k, 0, n - 1, x(k))`, `x(1) = 1` the candidate `2^(n - 2)` is `PROVABLY_CORRECT`; the sequence is
`2^(n - 1)`. -/
theorem C41_initial_condition_refuted : ∃ (wa : WA) (X : ℝ → ℝ) (sol : Expr), ∀ ρ : String → ℝ,
    rewriteWA "n" false 0 (.num 1) (.num 0) 0 = some wa ∧ SolvesWA (realInterp 0) "n" ρ (.num 1) (.num 0) 0 false X ∧ X 1 = 1 ∧
    (∃ O, KeepsVal (realInterp 0) "n" ρ 3 O.simp ∧ KeepsVal (realInterp 0) "n" ρ 3 O.computeSum ∧
      verifyWA O "n" "h" wa [(1, .num 1)] sol = .correct) ∧
    ∀ N : ℕ, 2 ≤ N → eval (withX (realInterp 0) X) (update ρ "n" (N : ℝ)) sol ≠ X N := by
  refine ⟨waSum, fun v => if v = 0 then 1 else 2 ^ (v - 1), doubling 2 (.num 1), fun ρ => ⟨waSum_eq, ?_, by simp,
    ⟨zeroOracle ρ 3, zeroSimp_keeps ρ 3, fun _ _ _ _ _ => rfl,
      doubling_verdict ρ 1 (.num 1) [(1, .num 1)] rfl (by simp [getIC, List.lookup]) (.inl rfl)⟩, fun N hN => ?_⟩⟩
  · have hp : ∀ m : ℕ, 1 ≤ m → (if (m : ℝ) = 0 then (1 : ℝ) else 2 ^ ((m : ℝ) - 1)) = 2 ^ (m - 1) := by
      intro m hm
      rw [if_neg (by positivity), ← Real.rpow_natCast, Nat.cast_sub hm]; simp
    intro N hN
    unfold WAAt
    simp only [Bool.false_eq_true, if_false, eval]
    rw [hp N hN]
    obtain ⟨M, rfl⟩ : ∃ M, N = M + 1 := ⟨N - 1, by omega⟩
    simp only [Nat.add_sub_cancel]
    clear hN
    induction M with
    | zero => simp
    | succ M ih =>
      rw [Finset.sum_Icc_succ_top (by omega), hp (M + 1) (by omega), Nat.add_sub_cancel, pow_succ]
      push_cast at ih ⊢
      linarith
  · rw [eval_doubling _ _ _ _ hN]
    have h0 : (N : ℝ) ≠ 0 := by have : 0 < N := by omega
                                positivity
    have e1 : (if (N : ℝ) = 0 then (1 : ℝ) else 2 ^ ((N : ℝ) - 1)) = 2 ^ (N - 2) * 2 := by
      rw [if_neg h0, ← pow_succ, show N - 2 + 1 = N - 1 by omega, ← Real.rpow_natCast, Nat.cast_sub (by omega)]; simp
    show _ ≠ if (N : ℝ) = 0 then (1 : ℝ) else 2 ^ ((N : ℝ) - 1)
    rw [e1]
    have : (0 : ℝ) < 2 ^ (N - 2) := by positivity
    simp only [eval]
    push_cast
    intro h
    linarith

/-! ## C72: bounds -/

/-- Nothing is left of a bound whose applications of `x` are initial conditions, in particular of one without any. -/
theorem partialBound_zero {n : String} {e : Expr} (h : hasOnlyIC n e = true) : partialBound n e = .num 0 := by
  cases e with
  | add l =>
    simp [hasOnlyIC] at h
    unfold partialBound
    induction l with
    | nil => rfl
    | cons a l ih =>
      have h1 := ih fun b hb => h b (by simp [hb])
      dsimp only at h1 ⊢
      rw [List.foldr_cons, if_pos (h a (by simp))]
      exact h1
  | _ => simp only [partialBound, h, if_true]

/-- **C72 is false of the code**: a candidate in which `x` is only applied to initial values is accepted without
any check, as upper and as lower bound of any functional equation. -/
theorem C72_accepts_everything_refuted {O : Oracle} {n : String} {bound : Expr} (h : hasOnlyIC n (O.simpSum bound) = true)
    (rest : Expr → Verdict) : verifyBound O n rest bound = .correct := by
  unfold verifyBound
  simp [partialBound_zero h]

/-- **C72 is false of the code**: for `x(n) = x(n/2) + n` the upper bound `-n` and the lower bound `n^2 + x(1)` are
`PROVABLY_CORRECT`, and both are wrong for every solution with `x(1) = 1` and every `n ≥ 3`. -/
theorem C72_refuted : ∃ up lo : Expr, (∀ (O : Oracle) (rest : Expr → Verdict), O.simpSum = id →
      verifyBound O "n" rest up = .correct ∧ verifyBound O "n" rest lo = .correct) ∧
    (∃ ξ : ℝ → ℝ, Bounds.Satisfies ξ 1 2 (fun m => (m : ℝ)) ∧ ξ 1 = 1) ∧
    ∀ ξ : ℝ → ℝ, Bounds.Satisfies ξ 1 2 (fun m => (m : ℝ)) → ξ 1 = 1 → ∀ (ρ : String → ℝ) (N : ℕ), 3 ≤ N →
      ¬ ξ N ≤ Bounds.val ξ ρ "n" up N ∧ ¬ Bounds.val ξ ρ "n" lo N ≤ ξ N := by
  refine ⟨.mul [.num (-1), .sym "n"], .add [.pow (.sym "n") (.num 2), xAt 1], fun O rest hO => ⟨?_, ?_⟩, ?_, fun ξ hξ h1 ρ N hN => ?_⟩
  · exact C72_accepts_everything_refuted (by rw [hO]; simp [hasOnlyIC]) rest
  · have := hasOnlyIC_xAt "n" 1
    exact C72_accepts_everything_refuted (by rw [hO]; simp [hasOnlyIC, this]) rest
  · obtain ⟨ξ, h1, h2⟩ := Bounds.exists_solution 1 (b := 2) le_rfl (fun m => (m : ℝ)) fun _ => 1
    exact ⟨ξ, h1, by simpa using h2 1 le_rfl (by norm_num)⟩
  · have key : ∀ m : ℕ, 1 ≤ m → (0 : ℝ) ≤ ξ m ∧ ξ m ≤ 2 * m - 1 := by
      intro m
      induction m using Nat.strong_induction_on with
      | _ m ih =>
        intro hm
        rcases Nat.lt_or_ge m 2 with h | h
        · obtain rfl : m = 1 := by omega
          simp [h1]; norm_num
        · have := hξ m h
          obtain ⟨i1, i2⟩ := ih (m / 2) (by omega) (by omega)
          have h3 : ((m / 2 : ℕ) : ℝ) ≤ m / 2 := Nat.cast_div_le
          rw [this]
          constructor
          · positivity
          · linarith
    have hv1 : Bounds.val ξ ρ "n" (.mul [.num (-1), .sym "n"]) N = -N := by
      simp [Bounds.val, eval]
    have hv2 : Bounds.val ξ ρ "n" (.add [.pow (.sym "n") (.num 2), xAt 1]) N = (N : ℝ) ^ 2 + 1 := by
      have p : (realInterp ξ).pw (N : ℝ) ((2 : ℕ) : ℝ) = (N : ℝ) ^ 2 := pw_nat _ _ 2
      have q : (realInterp ξ).fn .x [(1 : ℝ)] = ξ 1 := rfl
      simp only [Bounds.val, eval, xAt, List.map_cons, List.map_nil, List.sum_cons, List.sum_nil, update_self]
      push_cast at p ⊢
      rw [p, q, h1]; ring
    obtain ⟨k1, k2⟩ := key N (by omega)
    have hN' : (3 : ℝ) ≤ N := by exact_mod_cast hN
    rw [hv1, hv2]
    constructor
    · intro h; linarith
    · intro h; nlinarith

/-! ## C73: a recurrence with variable coefficients -/

/-- `x(n) = (n + 1)/n x(n - 1)`. -/
def recVar (ics : List (ℕ × Expr)) : Rec where
  n := "n"
  rhs := .mul [.add [.sym "n", .num 1], .pow (.sym "n") (.num (-1)), xDec "n" 1]
  inhom := .num 0
  order := 1
  first := 0
  gcd := 1
  ics := ics
  linear := true
  constCoeff := false
  numExp := 0
  noPoly := false
  maxDeg := 0
  mults := none
  reduced := none

/-- `n + 1`. -/
def nPlusOne : Expr := .add [.sym "n", .num 1]

theorem recVar_ok (ics : List (ℕ × Expr)) (ρ : String → ℝ) : RecOk (realInterp 0) (recVar ics) ρ (fun _ m => ((m : ℝ) + 1) / m) := by
  refine ⟨?_, by simp [recVar, hasX], by simp [recVar, idxNe], ?_, le_rfl, rfl, rfl, rfl⟩
  · simp [recVar, xDec, xOut]
  · intro Y m _
    have p : (withX (realInterp 0) Y).pw (m : ℝ) ((-1 : ℤ) : ℝ) = (m : ℝ) ^ (-1 : ℤ) := (withX (realInterp 0) Y).pw_int _ _
    simp only [recVar, xDec]
    have e1 := eval_x (realInterp 0) Y (update ρ "n" (m : ℝ)) (shiftN "n" (-((1 : ℕ) : ℚ)))
    rw [eval_shiftN] at e1
    simp only [eval, List.map_cons, List.map_nil, List.prod_cons, List.prod_nil, List.sum_cons, List.sum_nil, update_self] at e1 ⊢
    rw [e1]
    push_cast at p ⊢
    rw [p]
    simp [sub_eq_add_neg, div_eq_mul_inv]
    ring

open Classical in
/-- A simplifier that finds every expression without the unknown that vanishes for all `n ≥ 1`. -/
noncomputable def zeroSimpX (ρ : String → ℝ) (e : Expr) : Expr :=
  if hasX e = false ∧ ∀ m : ℕ, 1 ≤ m → valAt (realInterp 0) "n" ρ e m = 0 then .num 0 else e

/-- The program with this simplifier. -/
noncomputable def zeroOracleX (ρ : String → ℝ) : Oracle where
  simp := zeroSimpX ρ
  simpSum := id
  computeSum := id
  rw := id
  expand := id

theorem zeroOracleX_ok (ics : List (ℕ × Expr)) (ρ : String → ℝ) : OracleOk (realInterp 0) (recVar ics) (zeroOracleX ρ) ρ := by
  refine ⟨⟨fun X e hx _ m hm => ?_, fun e hx _ => ?_, fun e _ hi => ?_⟩, keeps_id .., keeps_id .., keeps_id ..⟩ <;>
    show _ = _ <;> simp only [zeroOracleX, zeroSimpX] <;> split_ifs with h
  · rw [eval_valAt _ hx]
    have := h.2 m hm
    simp only [show (recVar ics).n = "n" from rfl]
    rw [this]; simp [eval]
  · rfl
  · simp [hasX]
  · exact hx
  · simp [idxNe]
  · exact hi

theorem zeroSimpX_num (ρ : String → ℝ) (q : ℚ) : zeroSimpX ρ (.num q) = .num q := by
  unfold zeroSimpX
  split_ifs with h
  · have := h.2 1 le_rfl
    simp [valAt, eval] at this
    rw [this]
  · rfl

theorem nPlusOne_residual (ics : List (ℕ × Expr)) (ρ : String → ℝ) :
    traditional3 (recVar ics) (zeroOracleX ρ) nPlusOne = true ∧
    residual (recVar ics) (zeroOracleX ρ) (recVar ics).rhs nPlusOne = .num 0 := by
  have hx : hasX nPlusOne = false := by simp [nPlusOne, hasX]
  have hi : idxNe "n" nPlusOne = true := by simp [nPlusOne, idxNe]
  have hR := recVar_ok ics ρ
  have hO := zeroOracleX_ok ics ρ
  have hv : ∀ v : ℝ, valAt (realInterp 0) "n" ρ nPlusOne v = v + 1 := by intro v; simp [valAt, eval, nPlusOne]
  have main : ∀ rhs, (xOut "n" (List.range' 1 1) rhs = true) → (∀ (Y : ℝ → ℝ) (m : ℕ), 1 ≤ m →
      eval (withX (realInterp 0) Y) (update ρ "n" (m : ℝ)) rhs = ((m : ℝ) + 1) / m * Y ((m : ℝ) - 1)) →
      residual (recVar ics) (zeroOracleX ρ) rhs nPlusOne = .num 0 := by
    intro rhs ho he
    obtain ⟨⟨l1, l2⟩, -⟩ := substLoop_spec (realInterp 0) (recVar ics) (shiftSimp (recVar ics) (zeroOracleX ρ) nPlusOne)
      (fun d => (shift_val hO hx hi d).1) (fun d => (shift_val hO hx hi d).2.1) _ _ ho
    show zeroSimpX ρ (subE nPlusOne (substLoop (recVar ics) (shiftSimp (recVar ics) (zeroOracleX ρ) nPlusOne) (List.range' 1 1) rhs)) = .num 0
    refine if_pos ⟨hasX_subE hx l1, fun m hm => ?_⟩
    have h2 := loop_val (I := realInterp 0) (e := nPlusOne) (m := m) (fun d => (shift_val hO hx hi d).1) (fun d => (shift_val hO hx hi d).2.1)
      (fun d => (shift_val hO hx hi d).2.2 m hm) ho
    have h3 : valAt (realInterp 0) "n" ρ (subE nPlusOne (substLoop (recVar ics) (shiftSimp (recVar ics) (zeroOracleX ρ) nPlusOne) (List.range' 1 1) rhs)) m
        = valAt (realInterp 0) "n" ρ nPlusOne m - valAt (realInterp 0) "n" ρ (substLoop (recVar ics) (shiftSimp (recVar ics) (zeroOracleX ρ) nPlusOne) (List.range' 1 1) rhs) m :=
      eval_subE ..
    rw [h3]
    have h2' : valAt (realInterp 0) "n" ρ (substLoop (recVar ics) (shiftSimp (recVar ics) (zeroOracleX ρ) nPlusOne) (List.range' 1 1) rhs) m = _ := h2
    rw [h2', show (recVar ics).n = "n" from rfl, he _ m hm, hv, hv]
    have : (m : ℝ) ≠ 0 := by positivity
    field_simp
    ring
  constructor
  · rw [traditional3]
    have := main (subE (recVar ics).rhs (recVar ics).inhom) (homPart hR).1 (fun Y m hm => by
      have := (homPart hR).2 Y m hm
      simpa [recVar] using this)
    simp [this]
  · exact main _ hR.out (fun Y m hm => by
      have := hR.lin Y m hm
      simpa [recVar, eval] using this)

theorem at_nPlusOne (ρ : String → ℝ) (k : ℕ) : at' (zeroOracleX ρ) "n" nPlusOne k = .num (1 + k) := by
  have : substitute (.sym "n") (.num k) nPlusOne = .num (1 + k) := by simp [nPlusOne, substitute, addE]
  simp [at', zeroOracleX, this, zeroSimpX_num]

/-- The hypotheses of `C73_symbolic` for the solution `(n + 1) x(0)` of `x(n) = (n + 1)/n x(n - 1)`. -/
example (ρ : String → ℝ) : OracleOk (realInterp 0) (recVar []) (zeroOracleX ρ) ρ ∧
    RecOk (realInterp 0) (recVar []) ρ (fun _ m => ((m : ℝ) + 1) / m) ∧ (recVar []).constCoeff = false ∧ (recVar []).ics = [] ∧
    Candidate (recVar []).n (recVar []).first (recVar []).order (.mul [nPlusOne, xAt 0]) ∧
    verifyFiniteOrder (recVar []) (zeroOracleX ρ) (.mul [nPlusOne, xAt 0]) false = some (yes false) := by
  refine ⟨zeroOracleX_ok _ ρ, recVar_ok _ ρ, rfl, rfl, ?_, ?_⟩
  · exact .single (.mul [nPlusOne] [] 0 Nat.one_pos (by
      intro c hc
      obtain rfl : c = nPlusOne := by simpa using hc
      simp [nPlusOne, hasX, idxNe, recVar]))
  · have h := hasOnlyIC_xAt "n" 0
    have hsp : splitSolution "n" true (.mul [nPlusOne, xAt 0]) = (.mul [nPlusOne, xAt 0], .num 0) := by
      simp [splitSolution, nPlusOne, hasOnlyIC, h]
    have hf : fillVector 1 0 1 (.mul [nPlusOne, xAt 0]) = some [nPlusOne] := by
      simp [fillVector, nPlusOne, xAt, xArg, mulE]
    have h0 : at' (zeroOracleX ρ) "n" (.num 0) 0 = .num 0 := by simp [at', zeroOracleX, substitute, zeroSimpX_num]
    have h7 : validateSymbolic (recVar []) (zeroOracleX ρ) [nPlusOne] (.mul [nPlusOne, xAt 0]) (.num 0) = true := by
      have := at_nPlusOne ρ 0
      simp at this
      simp [validateSymbolic, recVar, this, h0]
    unfold verifyFiniteOrder
    rw [if_neg (by simp [recVar]), if_neg (by simp [recVar])]
    unfold verifySolution
    simp only [show (recVar []).n = "n" from rfl, show (recVar []).ics = [] from rfl, decide_true, hsp]
    simp only [show (recVar []).linear = true from rfl, show (recVar []).gcd = 1 from rfl, show (recVar []).first = 0 from rfl,
      show (recVar []).order = 1 from rfl, and_self, if_true, hf, Option.bind_some, h7]
    unfold steps34 step3
    simp only [show (recVar []).order / (recVar []).gcd = 1 by simp [recVar]]
    simp [show (recVar []).constCoeff = false from rfl, show (recVar []).linear = true from rfl, (nPlusOne_residual [] ρ).1,
      show (recVar []).inhom = .num 0 from rfl, show (recVar []).ics = [] from rfl, yes]

/-- The hypotheses of `C73_evaluated` for the solution `n + 1` of `x(n) = (n + 1)/n x(n - 1)`, `x(0) = 1`. -/
example (ρ : String → ℝ) : OracleOk (realInterp 0) (recVar [(0, .num 1)]) (zeroOracleX ρ) ρ ∧
    RecOk (realInterp 0) (recVar [(0, .num 1)]) ρ (fun _ m => ((m : ℝ) + 1) / m) ∧ (recVar [(0, .num 1)]).constCoeff = false ∧
    (recVar [(0, .num 1)]).ics ≠ [] ∧ (hasX nPlusOne = false ∧ idxNe "n" nPlusOne = true) ∧
    verifyFiniteOrder (recVar [(0, .num 1)]) (zeroOracleX ρ) nPlusOne false = some (yes false) := by
  refine ⟨zeroOracleX_ok _ ρ, recVar_ok _ ρ, rfl, by simp [recVar], ⟨by simp [nPlusOne, hasX], by simp [nPlusOne, idxNe]⟩, ?_⟩
  have hic : ¬ (recVar [(0, .num 1)]).ics = [] := by simp [recVar]
  have hsp : splitSolution (recVar [(0, .num 1)]).n (decide ((recVar [(0, .num 1)]).ics = [])) nPlusOne = (.num 0, nPlusOne) := by
    simp [splitSolution, hic]
  have hv : validateValues (recVar [(0, .num 1)]) (zeroOracleX ρ) nPlusOne = true := by
    have := at_nPlusOne ρ 0
    simp at this
    simp [validateValues, recVar, maxIC, getIC, List.lookup, this]
  have ht0 : traditional3 (recVar [(0, .num 1)]) (zeroOracleX ρ) (.num 0) = true := by
    have hO := zeroOracleX_ok [(0, .num 1)] ρ
    have hR := recVar_ok [(0, .num 1)] ρ
    obtain ⟨⟨h1, h2⟩, h3⟩ := residual_val hO (e := .num 0) (by simp [hasX]) (by simp [idxNe]) (homPart hR).1
    have : (zeroOracleX ρ).simp (residual (recVar [(0, .num 1)]) (zeroOracleX ρ) (subE (recVar [(0, .num 1)]).rhs (recVar [(0, .num 1)]).inhom) (.num 0)) = .num 0 := by
      refine if_pos ⟨h1, fun m hm => ?_⟩
      have h4 := h3 m hm
      rw [(homPart hR).2 _ m hm] at h4
      simp only [valAt_zero, mul_zero, Finset.sum_const_zero, sub_zero] at h4
      exact h4
    simp [traditional3, this]
  unfold verifyFiniteOrder
  rw [if_neg (by simp [recVar]), if_neg (by simp [recVar])]
  unfold verifySolution
  rw [hsp]
  simp only [hic, and_false, if_false, Option.bind_some, hv, if_true]
  unfold steps34 step3
  simp only [show (recVar [(0, .num 1)]).order / (recVar [(0, .num 1)]).gcd = 1 by simp [recVar]]
  simp [show (recVar [(0, .num 1)]).constCoeff = false from rfl, show (recVar [(0, .num 1)]).linear = true from rfl, ht0, hic,
    show (recVar [(0, .num 1)]).order = 1 from rfl, step4, (nPlusOne_residual [(0, .num 1)] ρ).2]

end Purrs.Verify
