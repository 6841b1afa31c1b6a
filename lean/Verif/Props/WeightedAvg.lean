import Verif.Model.WeightedAvg
import Verif.Props.OrderRedExp

/-!
# C34: weighted-average recurrences

The specification: `X` satisfies `x(n) = f(n) (x(n_0) + ... + x(u(n))) + g(n)` for all `n > n_0`, where `u(n)`
is `n` or `n - 1`.
-/

set_option linter.unusedSectionVars false

namespace Purrs.WeightedAvg

open Purrs Purrs.OrderRed Finset
open Function (update update_of_ne update_self update_comm)

variable {K : Type} [Field K] [CharZero K] (I : Interp K)

/-- `X` satisfies the weighted-average recurrence with weight `w`, inhomogeneous term `g`, lower limit
`lower` and upper limit `n` or `n - 1` at `n = N`. -/
def WAAt (n : String) (ρ : String → K) (w g : Expr) (lower : ℕ) (upperIsN : Bool) (X : K → K) (N : ℕ) : Prop :=
  X N = eval (withX I X) (update ρ n N) w *
      (∑ k ∈ Icc lower (if upperIsN then N else N - 1), X (k : K)) + eval (withX I X) (update ρ n N) g

/-- `X` satisfies the weighted-average recurrence at all `n` greater than the lower limit. -/
def SolvesWA (n : String) (ρ : String → K) (w g : Expr) (lower : ℕ) (upperIsN : Bool) (X : K → K) : Prop :=
  ∀ N : ℕ, lower < N → WAAt I n ρ w g lower upperIsN X N

/-- The sequence seen from `c` on. -/
def shiftX (X : K → K) (c : ℕ) : K → K := fun t => X (t + c)

/-! ### Sequences -/

/-- The equivalence for sequences. -/
theorem seq_iff (f g X : ℕ → K) (lower : ℕ) (hf : ∀ N, lower < N → f N ≠ 0) :
    (∀ N, lower < N → X N = f N * (∑ k ∈ Icc lower (N - 1), X k) + g N) ↔
    (X (lower + 1) = f (lower + 1) * X lower + g (lower + 1) ∧
     ∀ N, lower + 1 < N → X N = f N / f (N - 1) * (1 + f (N - 1)) * X (N - 1)
        + f N * (g N / f N - g (N - 1) / f (N - 1))) := by
  have hs : ∀ N, lower + 1 < N → (∑ k ∈ Icc lower (N - 1), X k) = (∑ k ∈ Icc lower (N - 1 - 1), X k) + X (N - 1) := by
    intro N hN
    obtain ⟨M, rfl⟩ : ∃ M, N = M + 2 := ⟨N - 2, by omega⟩
    rw [show M + 2 - 1 = M + 1 by omega, show M + 1 - 1 = M by omega, sum_Icc_succ_top (by omega)]
  constructor
  · intro h
    refine ⟨?_, ?_⟩
    · have := h (lower + 1) (by omega)
      simpa using this
    · intro N hN
      have h1 := h N (by omega)
      have h2 := h (N - 1) (by omega)
      rw [hs N hN] at h1
      have n1 := hf N (by omega)
      have n2 := hf (N - 1) (by omega)
      rw [h1, h2]
      generalize (∑ k ∈ Icc lower (N - 1 - 1), X k) = S
      field_simp
      ring
  · rintro ⟨h0, h1⟩ N hN
    induction N, Nat.succ_le_of_lt hN using Nat.le_induction with
    | base => simpa using h0
    | succ N hN' ih =>
      have h2 := ih (by omega)
      have h3 := h1 (N + 1) (by omega)
      have h4 := hs (N + 1) (by omega)
      simp only [Nat.add_sub_cancel] at h3 h4 ⊢
      have n1 := hf (N + 1) (by omega)
      have n2 := hf N (by omega)
      rw [h4, h3]
      have h5 : (∑ k ∈ Icc lower (N - 1), X k) = (X N - g N) / f N := by
        rw [h2]; field_simp; ring
      rw [h5]
      field_simp
      ring

/-! ### Expressions -/

theorem idxNe_subE {n : String} {a b : Expr} (ha : idxNe n a = true) (hb : idxNe n b = true) :
    idxNe n (subE a b) = true := idxNe_addE ha (idxNe_mulE (by simp [idxNe]) hb)

theorem idxNe_divE {n : String} {a b : Expr} (ha : idxNe n a = true) (hb : idxNe n b = true) :
    idxNe n (divE a b) = true := idxNe_mulE ha (idxNe_powE hb (by simp [idxNe]))

theorem idxNe_shiftN (n : String) (c : ℚ) : idxNe n (shiftN n c) = true :=
  idxNe_addE (by simp [idxNe]) (by simp [idxNe])

theorem idxNe_substN {n : String} {r : Expr} (hr : idxNe n r = true) {e : Expr} (he : idxNe n e = true) :
    idxNe n (substitute (.sym n) r e) = true := by
  induction e using Expr.ind with
  | num q => simp [substitute, idxNe]
  | const q => simp [substitute, idxNe]
  | sym t => rw [substitute]; split <;> simp_all [idxNe]
  | add l ih =>
    simp [idxNe] at he
    rw [substitute, if_neg (by simp)]
    have : ∀ m : List Expr, (∀ a ∈ m, a ∈ l) →
        idxNe n (m.foldr (fun a acc => addE acc (substitute (.sym n) r a)) (.num 0)) = true := by
      intro m hm
      induction m with
      | nil => simp [idxNe]
      | cons a m ihm =>
        exact idxNe_addE (ihm fun b hb => hm b (List.mem_cons_of_mem _ hb))
          (ih a (hm a List.mem_cons_self) (he a (hm a List.mem_cons_self)))
    exact this l fun a ha => ha
  | mul l ih =>
    simp [idxNe] at he
    rw [substitute, if_neg (by simp)]
    have : ∀ m : List Expr, (∀ a ∈ m, a ∈ l) →
        idxNe n (m.foldr (fun a acc => mulE acc (substitute (.sym n) r a)) (.num 1)) = true := by
      intro m hm
      induction m with
      | nil => simp [idxNe]
      | cons a m ihm =>
        exact idxNe_mulE (ihm fun b hb => hm b (List.mem_cons_of_mem _ hb))
          (ih a (hm a List.mem_cons_self) (he a (hm a List.mem_cons_self)))
    exact this l fun a ha => ha
  | pow b e ihb ihe =>
    simp [idxNe] at he
    rw [substitute, if_neg (by simp)]
    exact idxNe_powE (ihb he.1) (ihe he.2)
  | fn f l ih =>
    simp [idxNe] at he
    rw [substitute, if_neg (by simp)]
    simp [idxNe]
    exact fun a ha => ih a ha (he a ha)
  | binder k i a b c hi ha hb hc =>
    cases i with
    | sym t =>
      simp [idxNe] at he
      obtain ⟨⟨⟨h1, h2⟩, h3⟩, h4⟩ := he
      rw [substitute, if_neg (by simp)]
      have e1 : substitute (.sym n) r (.sym t) = .sym t := by simp [substitute, h1]
      simp [idxNe, e1, h1, ha h2, hb h3, hc h4]
    | _ => simp [idxNe] at he

/-- Substituting for `n` an expression that depends at most on `n`. -/
theorem eval_substN (J : Interp K) {n : String} {r : Expr}
    (hr : ∀ (ρ : String → K) s v, s ≠ n → eval J (update ρ s v) r = eval J ρ r) {e : Expr} (he : idxNe n e = true)
    (ρ : String → K) : eval J ρ (substitute (.sym n) r e) = eval J (update ρ n (eval J ρ r)) e := by
  apply C100_capture_free_partial
  induction e using Expr.ind with
  | num q => simp [CaptureFree]
  | const q => simp [CaptureFree]
  | sym s => simp [CaptureFree]
  | add l ih => simp [idxNe] at he; simp [CaptureFree]; exact fun a ha => ih a ha (he a ha)
  | mul l ih => simp [idxNe] at he; simp [CaptureFree]; exact fun a ha => ih a ha (he a ha)
  | pow b e hb he' => simp [idxNe] at he; simp [CaptureFree]; exact ⟨hb he.1, he' he.2⟩
  | fn f l ih => simp [idxNe] at he; simp [CaptureFree]; exact fun a ha => ih a ha (he a ha)
  | binder k i a b c hi ha hb hc =>
    cases i with
    | sym t =>
      simp [idxNe] at he
      obtain ⟨⟨⟨h1, h2⟩, h3⟩, h4⟩ := he
      simp only [CaptureFree]
      exact ⟨ha h2, hb h3, hc h4, t, rfl, h1, fun ρ v => hr ρ t v h1⟩
    | _ => simp [idxNe] at he

theorem eval_shiftN (J : Interp K) (n : String) (c : ℚ) (ρ : String → K) :
    eval J ρ (shiftN n c) = ρ n + c := by simp [shiftN, eval_addE, eval]

/-- Substituting `n + c` for `n`. -/
theorem eval_subst_shift (J : Interp K) {n : String} {e : Expr} (he : idxNe n e = true) (c : ℚ) (ρ : String → K) (v : K) :
    eval J (update ρ n v) (substitute (.sym n) (shiftN n c) e) = eval J (update ρ n (v + c)) e := by
  rw [eval_substN J _ he, eval_shiftN]
  · simp
  · intro ρ s v hs
    rw [eval_shiftN, eval_shiftN, update_of_ne (Ne.symm hs)]

theorem eval_divE (J : Interp K) (ρ : String → K) (a b : Expr) :
    eval J ρ (divE a b) = eval J ρ a / eval J ρ b := by
  unfold divE
  rw [eval_mulE, eval_powE]
  simp only [eval]
  rw [show (((-1 : ℚ)) : K) = ((-1 : ℤ) : K) by push_cast; rfl, J.pw_int, zpow_neg_one, div_eq_mul_inv]

/-- The right-hand side of the associated first order recurrence at `t`. -/
theorem eval_firstOrderRhs (J : Interp K) {n : String} {w g : Expr} (hw : idxNe n w = true) (hg : idxNe n g = true)
    (ρ : String → K) (t : K) :
    eval J (update ρ n t) (firstOrderRhs n w g)
      = eval J (update ρ n (t + 1)) w / eval J (update ρ n t) w * (1 + eval J (update ρ n t) w) * J.fn .x [t - 1]
        + eval J (update ρ n (t + 1)) w * (eval J (update ρ n (t + 1)) g / eval J (update ρ n (t + 1)) w
            - eval J (update ρ n t) g / eval J (update ρ n t) w) := by
  unfold firstOrderRhs
  dsimp only
  have hws := idxNe_substN (idxNe_shiftN n (-1)) hw
  have hgs := idxNe_substN (idxNe_shiftN n (-1)) hg
  rw [eval_addE, eval_mulE,
    eval_subst_shift J (idxNe_mulE (idxNe_divE hw hws) (idxNe_addE (by simp [idxNe]) hws)),
    eval_subst_shift J (idxNe_mulE hw (idxNe_subE (idxNe_divE hg hw) (idxNe_divE hgs hws)))]
  simp only [eval_mulE, eval_divE, eval_addE, eval_subE, eval_subst_shift J hw, eval_subst_shift J hg]
  simp only [eval, List.map_cons, List.map_nil, eval_shiftN, update_self]
  have e1 : t + ((1 : ℚ) : K) + ((-1 : ℚ) : K) = t := by push_cast; ring
  have e2 : t + ((-1 : ℚ) : K) = t - 1 := by push_cast; ring
  rw [e1, e2]
  push_cast
  ring

/-! ### The equivalence -/

/-- Rewriting the upper limit from `n` to `n - 1`. -/
theorem C34_upper_limit {n : String} {w g : Expr} (lower : ℕ) (h1 : w ≠ .num 1) (ρ : String → K) (X : K → K) (N : ℕ)
    (hN : lower < N) (hd : eval (withX I X) (update ρ n N) w ≠ 1) :
    WAAt I n ρ w g lower true X N ↔
    WAAt I n ρ (upperStep n true lower w g).1 (upperStep n true lower w g).2.1 lower false X N := by
  have e : upperStep n true lower w g = (divE w (subE (.num 1) w), divE g (subE (.num 1) w), lower) := by
    simp [upperStep, h1]
  rw [e]
  unfold WAAt
  simp only [eval_divE, eval_subE, if_true, Bool.false_eq_true, if_false]
  obtain ⟨M, rfl⟩ : ∃ M, N = M + 1 := ⟨N - 1, by omega⟩
  rw [sum_Icc_succ_top (by omega), Nat.add_sub_cancel]
  simp only [eval, Rat.cast_one]
  generalize (∑ k ∈ Icc lower M, X (k : K)) = S
  generalize eval (withX I X) (update ρ n ((M + 1 : ℕ) : K)) g = G
  generalize eval (withX I X) (update ρ n ((M + 1 : ℕ) : K)) w = F at *
  have hF : 1 - F ≠ 0 := sub_ne_zero.mpr (Ne.symm hd)
  constructor
  · intro h
    field_simp
    linear_combination h
  · intro h
    field_simp at h
    linear_combination h

/-- The recurrence with lower limit zero and upper limit `n - 1` and its associated first order recurrence, in
terms of a weight and an inhomogeneous term with these limits. -/
theorem equiv_core {n : String} (lower : ℕ) {w g w' g' : Expr} (hw : idxNe n w' = true) (hg : idxNe n g' = true)
    (hwx : hasX w' = false) (hgx : hasX g' = false) (ρ : String → K)
    (hw' : ∀ (X : K → K) (t : K), eval (withX I X) (update ρ n t) w' = eval (withX I X) (update ρ n (t + lower)) w)
    (hg' : ∀ (X : K → K) (t : K), eval (withX I X) (update ρ n t) g' = eval (withX I X) (update ρ n (t + lower)) g)
    (X : K → K) (hf : ∀ N : ℕ, lower < N → eval (withX I X) (update ρ n N) w ≠ 0) :
    SolvesWA I n ρ w g lower false X ↔ WAAt I n ρ w g lower false X (lower + 1) ∧
      SolvesAt I n (firstOrderRhs n w' g') ρ (shiftX X (lower + 1)) 1 := by
  have key := seq_iff (fun N => eval (withX I X) (update ρ n (N : K)) w) (fun N => eval (withX I X) (update ρ n (N : K)) g)
    (fun N => X (N : K)) lower hf
  have h1 : SolvesWA I n ρ w g lower false X ↔ _ := key
  rw [h1]
  refine and_congr ?_ ?_
  · unfold WAAt
    simp
  · unfold SolvesAt
    have hval : ∀ T : ℕ, eval (withX I (shiftX X (lower + 1))) (update ρ n (T : K)) (firstOrderRhs n w' g') =
        eval (withX I X) (update ρ n ((T + lower + 1 : ℕ) : K)) w / eval (withX I X) (update ρ n ((T + lower : ℕ) : K)) w
          * (1 + eval (withX I X) (update ρ n ((T + lower : ℕ) : K)) w) * X ((T + lower : ℕ) : K)
        + eval (withX I X) (update ρ n ((T + lower + 1 : ℕ) : K)) w *
          (eval (withX I X) (update ρ n ((T + lower + 1 : ℕ) : K)) g / eval (withX I X) (update ρ n ((T + lower + 1 : ℕ) : K)) w
            - eval (withX I X) (update ρ n ((T + lower : ℕ) : K)) g / eval (withX I X) (update ρ n ((T + lower : ℕ) : K)) w) := by
      intro T
      rw [eval_firstOrderRhs _ hw hg]
      simp only [eval_noX I (shiftX X (lower + 1)) X w' hwx, eval_noX I (shiftX X (lower + 1)) X g' hgx, hw' X, hg' X]
      have e1 : (T : K) + 1 + lower = ((T + lower + 1 : ℕ) : K) := by push_cast; ring
      have e2 : (T : K) + lower = ((T + lower : ℕ) : K) := by push_cast; ring
      have e3 : (withX I (shiftX X (lower + 1))).fn .x [(T : K) - 1] = X ((T + lower : ℕ) : K) := by
        simp only [withX, shiftX]
        congr 1
        push_cast; ring
      rw [e1, e2, e3]
    constructor
    · intro h T hT
      rw [hval T]
      have h3 := h (T + lower + 1) (by omega)
      simp only [Nat.add_sub_cancel] at h3
      rw [← h3]
      unfold shiftX
      congr 1
      push_cast; ring
    · intro h N hN
      obtain ⟨T, rfl⟩ : ∃ T, N = T + lower + 1 := ⟨N - lower - 1, by omega⟩
      have h3 := h T (by omega)
      rw [hval T] at h3
      simp only [Nat.add_sub_cancel]
      rw [← h3]
      unfold shiftX
      congr 1
      push_cast; ring

theorem hasX_addE {a b : Expr} (ha : hasX a = false) (hb : hasX b = false) : hasX (addE a b) = false := by
  cases a <;> cases b <;> simp only [addE] <;> (try split) <;> simp_all [hasX]

theorem hasX_mulE {a b : Expr} (ha : hasX a = false) (hb : hasX b = false) : hasX (mulE a b) = false := by
  cases a <;> cases b <;> simp only [mulE] <;> (try split) <;> (try split) <;> simp_all [hasX]

theorem hasX_powE {a b : Expr} (ha : hasX a = false) (hb : hasX b = false) : hasX (powE a b) = false := by
  cases a <;> cases b <;> simp only [powE] <;> (try split) <;> (try split) <;> simp_all [hasX]

theorem hasX_divE {a b : Expr} (ha : hasX a = false) (hb : hasX b = false) : hasX (divE a b) = false :=
  hasX_mulE ha (hasX_powE hb (by simp [hasX]))

theorem hasX_subE {a b : Expr} (ha : hasX a = false) (hb : hasX b = false) : hasX (subE a b) = false :=
  hasX_addE ha (hasX_mulE (by simp [hasX]) hb)

theorem hasX_substN {n : String} {r : Expr} (hr : hasX r = false) {e : Expr} (he : hasX e = false) :
    hasX (substitute (.sym n) r e) = false := by
  induction e using Expr.ind with
  | num q => simp [substitute, hasX]
  | const q => simp [substitute, hasX]
  | sym t => rw [substitute]; split <;> simp_all [hasX]
  | add l ih =>
    simp [hasX] at he
    rw [substitute, if_neg (by simp)]
    have : ∀ m : List Expr, (∀ a ∈ m, a ∈ l) →
        hasX (m.foldr (fun a acc => addE acc (substitute (.sym n) r a)) (.num 0)) = false := by
      intro m hm
      induction m with
      | nil => simp [hasX]
      | cons a m ihm =>
        exact hasX_addE (ihm fun b hb => hm b (List.mem_cons_of_mem _ hb))
          (ih a (hm a List.mem_cons_self) (he a (hm a List.mem_cons_self)))
    exact this l fun a ha => ha
  | mul l ih =>
    simp [hasX] at he
    rw [substitute, if_neg (by simp)]
    have : ∀ m : List Expr, (∀ a ∈ m, a ∈ l) →
        hasX (m.foldr (fun a acc => mulE acc (substitute (.sym n) r a)) (.num 1)) = false := by
      intro m hm
      induction m with
      | nil => simp [hasX]
      | cons a m ihm =>
        exact hasX_mulE (ihm fun b hb => hm b (List.mem_cons_of_mem _ hb))
          (ih a (hm a List.mem_cons_self) (he a (hm a List.mem_cons_self)))
    exact this l fun a ha => ha
  | pow b e ihb ihe =>
    simp [hasX] at he
    rw [substitute, if_neg (by simp)]
    exact hasX_powE (ihb he.1) (ihe he.2)
  | fn f l ih =>
    have hf : f ≠ .x := by intro e; rw [e] at he; simp [hasX] at he
    have hl : ∀ a ∈ l, hasX a = false := by simpa [hasX, hf] using he
    rw [substitute, if_neg (by simp)]
    simp [hasX, hf]
    exact fun a ha => ih a ha (hl a ha)
  | binder k i a b c hi ha hb hc =>
    simp [hasX] at he
    rw [substitute, if_neg (by simp)]
    simp [hasX, hi he.1.1.1, ha he.1.1.2, hb he.1.2, hc he.2]

theorem hasX_shiftN (n : String) (c : ℚ) : hasX (shiftN n c) = false :=
  hasX_addE (by simp [hasX]) (by simp [hasX])

/-- The data of a weighted-average recurrence on which the code is right: the weight is not literally `1` when
the upper limit is `n`, nor literally `-1` after rewriting; the weight and the inhomogeneous term do not contain the
unknown; the weight (and, for upper limit `n`, one minus the weight) does not vanish above the lower limit. -/
structure Regular (n : String) (ρ : String → K) (w g : Expr) (lower : ℕ) (upperIsN : Bool) : Prop where
  idxw : idxNe n w = true
  idxg : idxNe n g = true
  xw : hasX w = false
  xg : hasX g = false
  one : upperIsN = true → w ≠ .num 1
  ne0 : ∀ (X : K → K) (N : ℕ), lower < N → eval (withX I X) (update ρ n N) w ≠ 0
  ne1 : upperIsN = true → ∀ (X : K → K) (N : ℕ), lower < N → eval (withX I X) (update ρ n N) w ≠ 1

/-- What the rewriting stores, for regular data. -/
theorem rewriteWA_spec {n : String} {w g : Expr} {lower z : ℕ} {upperIsN : Bool} {wa : WA}
    (h1 : upperIsN = true → w ≠ .num 1)
    (hwa : rewriteWA n upperIsN lower w g z = some wa) :
    wa.origWeight = (upperStep n upperIsN lower w g).1 ∧ wa.origInhom = (upperStep n upperIsN lower w g).2.1 ∧
    wa.lower = lower ∧ (wa.rewritten = false → lower = 0 ∧ wa.weight = wa.origWeight ∧ wa.inhom = wa.origInhom) ∧
    wa.weight = (if lower > 0 then substitute (.sym n) (shiftN n (lower : ℚ)) wa.origWeight else wa.origWeight) ∧
    wa.inhom = (if lower > 0 then substitute (.sym n) (shiftN n (lower : ℚ)) wa.origInhom else wa.origInhom) ∧
    wa.rhsFirst = firstOrderRhs n wa.weight wa.inhom ∧ z ≤ lower ∧ wa.first = lower := by
  have hl : (upperStep n upperIsN lower w g).2.2 = lower := by
    unfold upperStep
    cases upperIsN <;> simp [h1]
  unfold rewriteWA at hwa
  simp only [hl] at hwa
  split_ifs at hwa with h2 h3 <;> (simp only [Option.some.injEq] at hwa; subst hwa; simp_all; try omega)

variable {I}

theorem upperStep_ok {n : String} {ρ : String → K} {w g : Expr} {lower : ℕ} {upperIsN : Bool}
    (hr : Regular I n ρ w g lower upperIsN) :
    idxNe n (upperStep n upperIsN lower w g).1 = true ∧ idxNe n (upperStep n upperIsN lower w g).2.1 = true ∧
    hasX (upperStep n upperIsN lower w g).1 = false ∧ hasX (upperStep n upperIsN lower w g).2.1 = false ∧
    ∀ (X : K → K) (N : ℕ), lower < N → eval (withX I X) (update ρ n N) (upperStep n upperIsN lower w g).1 ≠ 0 := by
  cases upperIsN with
  | false => exact ⟨hr.idxw, hr.idxg, hr.xw, hr.xg, hr.ne0⟩
  | true =>
    have e : upperStep n true lower w g = (divE w (subE (.num 1) w), divE g (subE (.num 1) w), lower) := by
      simp [upperStep, hr.one rfl]
    rw [e]
    have i1 : idxNe n (subE (.num 1) w) = true := idxNe_subE (by simp [idxNe]) hr.idxw
    have i2 : hasX (subE (.num 1) w) = false := hasX_subE (by simp [hasX]) hr.xw
    refine ⟨idxNe_divE hr.idxw i1, idxNe_divE hr.idxg i1, hasX_divE hr.xw i2, hasX_divE hr.xg i2, ?_⟩
    intro X N hN
    rw [eval_divE, eval_subE]
    simp only [eval, Rat.cast_one]
    exact div_ne_zero (hr.ne0 X N hN) (sub_ne_zero.mpr (Ne.symm (hr.ne1 rfl X N hN)))

/-- **C34**.  A function satisfies the weighted-average recurrence exactly when it satisfies it at the first index
and its continuation satisfies the first order recurrence stored by the classification. -/
theorem C34_equivalence {n : String} {ρ : String → K} {w g : Expr} {lower z : ℕ} {upperIsN : Bool} {wa : WA}
    (hr : Regular I n ρ w g lower upperIsN) (hwa : rewriteWA n upperIsN lower w g z = some wa) (X : K → K) :
    SolvesWA I n ρ w g lower upperIsN X ↔ WAAt I n ρ w g lower upperIsN X (lower + 1) ∧
      SolvesAt I n wa.rhsFirst ρ (shiftX X (lower + 1)) 1 := by
  obtain ⟨s1, s2, -, -, s5, s6, s7, -, -⟩ := rewriteWA_spec hr.one hwa
  obtain ⟨u1, u2, u3, u4, u5⟩ := upperStep_ok hr
  rw [← s1] at u1 u3 u5
  rw [← s2] at u2 u4
  have hstep : ∀ N, lower < N →
      (WAAt I n ρ w g lower upperIsN X N ↔ WAAt I n ρ wa.origWeight wa.origInhom lower false X N) := by
    intro N hN
    cases upperIsN with
    | true => rw [s1, s2]; exact C34_upper_limit I lower (hr.one rfl) ρ X N hN (hr.ne1 rfl X N hN)
    | false => rw [s1, s2]; exact Iff.rfl
  have hw1 : idxNe n wa.weight = true := by
    rw [s5]; split_ifs
    · exact idxNe_substN (idxNe_shiftN _ _) u1
    · exact u1
  have hg1 : idxNe n wa.inhom = true := by
    rw [s6]; split_ifs
    · exact idxNe_substN (idxNe_shiftN _ _) u2
    · exact u2
  have hw2 : hasX wa.weight = false := by
    rw [s5]; split_ifs
    · exact hasX_substN (hasX_shiftN _ _) u3
    · exact u3
  have hg2 : hasX wa.inhom = false := by
    rw [s6]; split_ifs
    · exact hasX_substN (hasX_shiftN _ _) u4
    · exact u4
  have hw3 : ∀ (X : K → K) (t : K), eval (withX I X) (update ρ n t) wa.weight
      = eval (withX I X) (update ρ n (t + lower)) wa.origWeight := by
    intro X t
    rw [s5]; split_ifs with h
    · rw [eval_subst_shift _ u1]; simp
    · have : lower = 0 := by omega
      simp [this]
  have hg3 : ∀ (X : K → K) (t : K), eval (withX I X) (update ρ n t) wa.inhom
      = eval (withX I X) (update ρ n (t + lower)) wa.origInhom := by
    intro X t
    rw [s6]; split_ifs with h
    · rw [eval_subst_shift _ u2]; simp
    · have : lower = 0 := by omega
      simp [this]
  have core := equiv_core I lower hw1 hg1 hw2 hg2 ρ hw3 hg3 X (u5 X)
  rw [s7, hstep (lower + 1) (by omega), ← core]
  exact forall_congr' fun N => forall_congr' fun hN => hstep N hN

/-! ### The solution -/

/-- Expressions whose only initial condition is `x(0)` and whose summation indices are symbols different from `n` and
not occurring in `r`. -/
def x0ok (n : String) (r : Expr) : Expr → Bool
  | .add l => (l.map fun a => x0ok n r a).all id
  | .mul l => (l.map fun a => x0ok n r a).all id
  | .pow b e => x0ok n r b && x0ok n r e
  | .fn f l => if f = .x then decide (l = [.num 0]) else (l.map fun a => x0ok n r a).all id
  | .binder _ i lo up body =>
      (match i with | .sym s => decide (s ≠ n) && isScalarRep s r | _ => false) &&
        x0ok n r lo && x0ok n r up && x0ok n r body
  | _ => true

theorem x0ok_addE {n : String} {r a b : Expr} (ha : x0ok n r a = true) (hb : x0ok n r b = true) :
    x0ok n r (addE a b) = true := by
  cases a <;> cases b <;> simp only [addE] <;> (try split) <;> simp_all [x0ok]

theorem x0ok_mulE {n : String} {r a b : Expr} (ha : x0ok n r a = true) (hb : x0ok n r b = true) :
    x0ok n r (mulE a b) = true := by
  cases a <;> cases b <;> simp only [mulE] <;> (try split) <;> (try split) <;> simp_all [x0ok]

theorem x0ok_powE {n : String} {r a b : Expr} (ha : x0ok n r a = true) (hb : x0ok n r b = true) :
    x0ok n r (powE a b) = true := by
  cases a <;> cases b <;> simp only [powE] <;> (try split) <;> (try split) <;> simp_all [x0ok]

theorem idxNe_of_x0ok {n : String} {r e : Expr} (h : x0ok n r e = true) : idxNe n e = true := by
  induction e using Expr.ind with
  | num q => simp [idxNe]
  | const q => simp [idxNe]
  | sym s => simp [idxNe]
  | add l ih => simp [x0ok] at h; simp [idxNe]; exact fun a ha => ih a ha (h a ha)
  | mul l ih => simp [x0ok] at h; simp [idxNe]; exact fun a ha => ih a ha (h a ha)
  | pow b e hb he => simp [x0ok] at h; simp [idxNe]; exact ⟨hb h.1, he h.2⟩
  | fn f l ih =>
    by_cases hf : f = .x
    · simp [x0ok, hf] at h; subst h; simp [idxNe]
    · simp [x0ok, hf] at h; simp [idxNe]; exact fun a ha => ih a ha (h a ha)
  | binder k i a b c hi ha hb hc =>
    cases i with
    | sym t =>
      simp [x0ok] at h
      simp [idxNe, h.1.1.1.1, ha h.1.1.2, hb h.1.2, hc h.2]
    | _ => simp [x0ok] at h

theorem x0ok_substN {n : String} {r s : Expr} (hs : x0ok n r s = true) {e : Expr} (he : x0ok n r e = true) :
    x0ok n r (substitute (.sym n) s e) = true := by
  induction e using Expr.ind with
  | num q => simp [substitute, x0ok]
  | const q => simp [substitute, x0ok]
  | sym t => rw [substitute]; split <;> simp_all [x0ok]
  | add l ih =>
    simp [x0ok] at he
    rw [substitute, if_neg (by simp)]
    have : ∀ m : List Expr, (∀ a ∈ m, a ∈ l) →
        x0ok n r (m.foldr (fun a acc => addE acc (substitute (.sym n) s a)) (.num 0)) = true := by
      intro m hm
      induction m with
      | nil => simp [x0ok]
      | cons a m ihm =>
        exact x0ok_addE (ihm fun b hb => hm b (List.mem_cons_of_mem _ hb))
          (ih a (hm a List.mem_cons_self) (he a (hm a List.mem_cons_self)))
    exact this l fun a ha => ha
  | mul l ih =>
    simp [x0ok] at he
    rw [substitute, if_neg (by simp)]
    have : ∀ m : List Expr, (∀ a ∈ m, a ∈ l) →
        x0ok n r (m.foldr (fun a acc => mulE acc (substitute (.sym n) s a)) (.num 1)) = true := by
      intro m hm
      induction m with
      | nil => simp [x0ok]
      | cons a m ihm =>
        exact x0ok_mulE (ihm fun b hb => hm b (List.mem_cons_of_mem _ hb))
          (ih a (hm a List.mem_cons_self) (he a (hm a List.mem_cons_self)))
    exact this l fun a ha => ha
  | pow b e ihb ihe =>
    simp [x0ok] at he
    rw [substitute, if_neg (by simp)]
    exact x0ok_powE (ihb he.1) (ihe he.2)
  | fn f l ih =>
    by_cases hf : f = .x
    · simp [x0ok, hf] at he
      subst he
      rw [substitute, if_neg (by simp)]
      simp [x0ok, hf, substitute]
    · simp [x0ok, hf] at he
      rw [substitute, if_neg (by simp)]
      simp [x0ok, hf]
      exact fun a ha => ih a ha (he a ha)
  | binder k i a b c hi ha hb hc =>
    cases i with
    | sym t =>
      simp [x0ok] at he
      obtain ⟨⟨⟨h1, h2⟩, h3⟩, h4⟩ := he
      rw [substitute, if_neg (by simp)]
      have e1 : substitute (.sym n) s (.sym t) = .sym t := by simp [substitute, h1.1]
      simp [x0ok, e1, h1, ha h2, hb h3, hc h4]
    | _ => simp [x0ok] at he

/-- Substituting for `x(0)`: the value is that of the expression for another unknown with the right value at zero. -/
theorem eval_subst_x0 {n : String} {r : Expr} (X Y : K → K) {e : Expr} (he : x0ok n r e = true) :
    ∀ ρ : String → K, eval (withX I X) ρ r = Y 0 →
      eval (withX I X) ρ (substitute (.fn .x [.num 0]) r e) = eval (withX I Y) ρ e := by
  induction e using Expr.ind with
  | num q => intro ρ _; simp [substitute, eval]
  | const q => intro ρ _; simp [substitute, eval, withX]
  | sym t => intro ρ _; simp [substitute, eval]
  | add l ih =>
    intro ρ hρ
    simp [x0ok] at he
    rw [substitute, if_neg (by simp)]
    simp only [eval_foldr_addE, eval, Rat.cast_zero, zero_add]
    congr 1
    exact List.map_congr_left fun a ha => ih a ha (he a ha) ρ hρ
  | mul l ih =>
    intro ρ hρ
    simp [x0ok] at he
    rw [substitute, if_neg (by simp)]
    simp only [eval_foldr_mulE, eval, Rat.cast_one, one_mul]
    congr 1
    exact List.map_congr_left fun a ha => ih a ha (he a ha) ρ hρ
  | pow b e ihb ihe =>
    intro ρ hρ
    simp [x0ok] at he
    rw [substitute, if_neg (by simp), eval_powE, ihb he.1 ρ hρ, ihe he.2 ρ hρ]
    simp only [eval]; rfl
  | fn f l ih =>
    intro ρ hρ
    by_cases hf : f = .x
    · simp [x0ok, hf] at he
      subst he; subst hf
      rw [substitute, if_pos rfl, hρ, eval_x]
      simp [eval]
    · simp [x0ok, hf] at he
      rw [substitute, if_neg (by simp [hf])]
      simp only [eval, List.map_map]
      rw [fn_ne_x I X Y hf]
      congr 1
      exact List.map_congr_left fun a ha => ih a ha (he a ha) ρ hρ
  | binder k i a b c hi ha hb hc =>
    intro ρ hρ
    cases i with
    | sym t =>
      simp [x0ok] at he
      obtain ⟨⟨⟨h1, h2⟩, h3⟩, h4⟩ := he
      have e1 : substitute (.fn .x [.num 0]) r (.sym t) = .sym t := by simp [substitute]
      rw [substitute, if_neg (by simp), e1]
      simp only [eval]
      rw [ha h2 ρ hρ, hb h3 ρ hρ]
      show I.bind _ _ _ _ = I.bind _ _ _ _
      congr 1
      funext v
      refine hc h4 _ ?_
      simp only [bindIdx]
      rw [C20_scalar_sound _ t r h1.2, hρ]
    | _ => simp [x0ok] at he

/-- **C34**, the solution.  When the associated first order recurrence is solved correctly, the expression returned
for the weighted-average recurrence has the value of the sequence at every index above the lower limit.
Missing from the full property: a weight that is literally `-1` and a weight literally `1` with upper limit `n`; both are
refuted below. -/
theorem C106_solution_partial {n : String} {ρ : String → K} {w g : Expr} {lower z : ℕ} {upperIsN : Bool} {wa : WA}
    (hr : Regular I n ρ w g lower upperIsN) (hwa : rewriteWA n upperIsN lower w g z = some wa)
    (hm1 : wa.weight ≠ .num (-1)) {sol1 : Expr}
    (hsol : ∀ r, r = substitute (.sym n) (.num ((lower : ℚ) + 1))
      (addE (mulE wa.origWeight (.fn .x [.num lower])) wa.origInhom) → x0ok n r sol1 = true)
    (hfirst : IsSolution I n wa.rhsFirst ρ sol1 0 1)
    (X : K → K) (hX : SolvesWA I n ρ w g lower upperIsN X) (N : ℕ) (hN : lower < N) :
    eval (withX I X) (update ρ n N) (computeWA n wa sol1) = X N := by
  obtain ⟨s1, s2, s3, s4, s5, s6, s7, -, -⟩ := rewriteWA_spec hr.one hwa
  obtain ⟨u1, u2, u3, u4, u5⟩ := upperStep_ok hr
  rw [← s1] at u1 u3 u5
  rw [← s2] at u2 u4
  have hX' := (C34_equivalence hr hwa X).mp hX
  have hstep : WAAt I n ρ wa.origWeight wa.origInhom lower false X (lower + 1) := by
    have := hX'.1
    cases upperIsN with
    | true =>
      rw [s1, s2]
      exact (C34_upper_limit I lower (hr.one rfl) ρ X _ (by omega) (hr.ne1 rfl X _ (by omega))).mp this
    | false => rw [s1, s2]; exact this
  have hsolv := hfirst (shiftX X (lower + 1)) hX'.2
  have e1 : computeWA n wa sol1 = substitute (.fn .x [.num 0])
      (substitute (.sym n) (.num ((lower : ℚ) + 1)) (addE (mulE wa.origWeight (.fn .x [.num lower])) wa.origInhom))
      (substitute (.sym n) (shiftN n (-1 - lower)) sol1) := by
    unfold computeWA
    rw [if_neg hm1]
    cases hrw : wa.rewritten with
    | true => simp [s3]
    | false =>
      obtain ⟨h1, h2, h3⟩ := s4 hrw
      subst h1
      rw [h2, h3]
      simp
  rw [e1]
  generalize hrdef : substitute (.sym n) (.num ((lower : ℚ) + 1))
    (addE (mulE wa.origWeight (.fn .x [.num lower])) wa.origInhom) = r at *
  have hok := hsol r rfl
  have hshift : x0ok n r (shiftN n (-1 - lower)) = true := x0ok_addE (by simp [x0ok]) (by simp [x0ok])
  have hrv : eval (withX I X) (update ρ n N) r = shiftX X (lower + 1) 0 := by
    rw [← hrdef, eval_substN _ _ (idxNe_addE (idxNe_mulE u1 (by simp [idxNe])) u2)]
    · rw [eval_addE, eval_mulE, eval_x]
      simp only [eval]
      have hu : update (update ρ n (N : K)) n (((lower : ℚ) + 1 : ℚ) : K) = update ρ n ((lower + 1 : ℕ) : K) := by
        rw [Function.update_idem]; push_cast; rfl
      rw [hu]
      unfold WAAt at hstep
      simp only [Bool.false_eq_true, if_false, Nat.add_sub_cancel, Icc_self, sum_singleton] at hstep
      unfold shiftX
      rw [zero_add, hstep]
      simp
    · intro ρ s v _; simp [eval]
  rw [eval_subst_x0 X (shiftX X (lower + 1)) (x0ok_substN hshift hok) _ hrv,
    eval_subst_shift _ (idxNe_of_x0ok hok)]
  obtain ⟨T, rfl⟩ : ∃ T, N = T + lower + 1 := ⟨N - lower - 1, by omega⟩
  have e2 : ((T + lower + 1 : ℕ) : K) + (((-1 - lower : ℚ)) : K) = (T : K) := by push_cast; ring
  rw [e2, hsolv T (by omega)]
  unfold shiftX
  congr 1
  push_cast; ring

/-- **C34**, the special case of the weight `-1` with lower limit 0 and upper limit `n - 1`: right from `n = 2` on. -/
theorem C106_minus_one_partial {n : String} {ρ : String → K} {g : Expr} {z : ℕ} {wa : WA} (hg : idxNe n g = true)
    (hwa : rewriteWA n false 0 (.num (-1)) g z = some wa) (sol1 : Expr)
    (X : K → K) (hX : SolvesWA I n ρ (.num (-1)) g 0 false X) (N : ℕ) (hN : 2 ≤ N) :
    eval (withX I X) (update ρ n N) (computeWA n wa sol1) = X N := by
  obtain ⟨s1, s2, s3, s4, s5, s6, s7, -, -⟩ := rewriteWA_spec (by simp) hwa
  have hw : wa.weight = .num (-1) := by rw [s5, s1]; simp [upperStep]
  have hi : wa.inhom = g := by rw [s6, s2]; simp [upperStep]
  unfold computeWA
  rw [if_pos hw, hi, eval_subE, eval_subst_shift _ hg]
  obtain ⟨M, rfl⟩ : ∃ M, N = M + 2 := ⟨N - 2, by omega⟩
  have h1 := hX (M + 2) (by omega)
  have h2 := hX (M + 1) (by omega)
  unfold WAAt at h1 h2
  simp only [Bool.false_eq_true, if_false, Nat.add_sub_cancel, show M + 2 - 1 = M + 1 by omega] at h1 h2
  rw [sum_Icc_succ_top (by omega)] at h1
  have e : ((M + 2 : ℕ) : K) + ((-1 : ℚ) : K) = ((M + 1 : ℕ) : K) := by push_cast; ring
  rw [e]
  simp only [eval] at h1 h2
  push_cast at h1 h2 ⊢
  linear_combination (-1 : K) * h1 + h2

/-! ### Refutations -/

/-- `n`. -/
def gLin : Expr := .sym "n"
/-- `n^2`. -/
def gSq : Expr := .pow (.sym "n") (.num 2)

/-- The full property fails at `n = 1` for the weight `-1`: for `x(n) = -sum(k, 0, n-1, x(k)) + n` with `x(0) = 1`,
`x(1)` is `0` and the solution returned gives `1`. -/
theorem C106_minus_one_refuted : ∃ (wa : WA) (X : ℝ → ℝ),
    rewriteWA "n" false 0 (.num (-1)) gLin 0 = some wa ∧
    SolvesWA (realInterp 0) "n" (fun _ => 0) (.num (-1)) gLin 0 false X ∧
    ∀ sol1, eval (withX (realInterp 0) X) (update (fun _ => 0) "n" ((1 : ℕ) : ℝ)) (computeWA "n" wa sol1)
      ≠ X ((1 : ℕ) : ℝ) := by
  refine ⟨_, fun v => if v = 1 then 0 else 1, rfl, ?_, ?_⟩
  · have hs : ∀ M : ℕ, 1 ≤ M → ∑ k ∈ Icc 0 M, (if (k : ℝ) = 1 then (0 : ℝ) else 1) = M := by
      intro M hM
      induction M, hM using Nat.le_induction with
      | base => simp [show Icc 0 1 = {0, 1} from rfl]
      | succ M hM ih =>
        rw [sum_Icc_succ_top (by omega), ih, if_neg (by push_cast; intro h; have : (M : ℝ) = 0 := by linarith
                                                        have : M = 0 := by exact_mod_cast this
                                                        omega)]
        push_cast; ring
    intro N hN
    unfold WAAt
    simp only [eval, gLin, update_self, Bool.false_eq_true, if_false]
    rcases Nat.lt_or_ge N 2 with h | h
    · have : N = 1 := by omega
      subst this
      simp
    · rw [hs (N - 1) (by omega), if_neg (by intro h'; have : N = 1 := by exact_mod_cast h'
                                            omega)]
      obtain ⟨M, rfl⟩ : ∃ M, N = M + 1 := ⟨N - 1, by omega⟩
      push_cast
      simp
  · intro sol1
    simp [computeWA, upperStep, eval_subE, gLin, eval, substitute, eval_shiftN]

/-- The full property fails for the weight `-1` and a positive lower limit: for
`x(n) = -sum(k, 1, n-1, x(k)) + n^2` the solution returned is `2 n + 1` while the sequence is `2 n - 1`. -/
theorem C106_minus_one_lower_refuted : ∃ (wa : WA) (X : ℝ → ℝ),
    rewriteWA "n" false 1 (.num (-1)) gSq 0 = some wa ∧
    SolvesWA (realInterp 0) "n" (fun _ => 0) (.num (-1)) gSq 1 false X ∧
    ∀ sol1 (N : ℕ), eval (withX (realInterp 0) X) (update (fun _ => 0) "n" (N : ℝ)) (computeWA "n" wa sol1)
      ≠ X (N : ℝ) := by
  refine ⟨_, fun v => 2 * v - 1, rfl, ?_, ?_⟩
  · have hs : ∀ M : ℕ, ∑ k ∈ Icc 1 M, (2 * (k : ℝ) - 1) = (M : ℝ) ^ 2 := by
      intro M
      induction M with
      | zero => simp
      | succ M ih => rw [sum_Icc_succ_top (by omega), ih]; push_cast; ring
    intro N hN
    unfold WAAt
    simp only [Bool.false_eq_true, if_false]
    rw [hs (N - 1)]
    obtain ⟨M, rfl⟩ : ∃ M, N = M + 1 := ⟨N - 1, by omega⟩
    simp [eval, gSq, withX, realInterp]
    ring
  · intro sol1 N
    have hg : idxNe "n" gSq = true := by simp [idxNe, gSq]
    have hw : substitute (.sym "n") (shiftN "n" ((1 : ℕ) : ℚ)) (.num (-1)) = .num (-1) := by simp [substitute]
    simp only [computeWA, upperStep, Bool.false_eq_true, if_false, Nat.lt_one_iff, gt_iff_lt, if_true, hw]
    rw [eval_subE, eval_subst_shift _ (idxNe_substN (idxNe_shiftN _ _) hg), eval_subst_shift _ hg, eval_subst_shift _ hg]
    simp [eval, gSq, withX, realInterp]
    intro h
    ring_nf at h
    linarith

/-- The full property fails for the weight `1` and upper limit `n`: for `x(n) = sum(k, 0, n, x(k)) + n^2` the solution
returned is `-2 n - 3` while the sequence is `-2 n - 1`. -/
theorem C106_weight_one_refuted : ∃ (wa : WA) (X : ℝ → ℝ),
    rewriteWA "n" true 0 (.num 1) gSq 0 = some wa ∧
    SolvesWA (realInterp 0) "n" (fun _ => 0) (.num 1) gSq 0 true X ∧
    ∀ sol1 (N : ℕ), eval (withX (realInterp 0) X) (update (fun _ => 0) "n" (N : ℝ)) (computeWA "n" wa sol1)
      ≠ X (N : ℝ) := by
  refine ⟨_, fun v => -2 * v - 1, rfl, ?_, ?_⟩
  · have hs : ∀ M : ℕ, ∑ k ∈ Icc 0 M, (-2 * (k : ℝ) - 1) = -((M : ℝ) + 1) ^ 2 := by
      intro M
      induction M with
      | zero => simp
      | succ M ih => rw [sum_Icc_succ_top (by omega), ih]; push_cast; ring
    intro N hN
    unfold WAAt
    simp only [if_true]
    rw [hs N]
    simp [eval, gSq, withX, realInterp]
    ring
  · intro sol1 N
    have hg : idxNe "n" gSq = true := by simp [idxNe, gSq]
    have hg1 := idxNe_substN (idxNe_shiftN "n" 1) hg
    have hg2 : idxNe "n" (negE (substitute (.sym "n") (shiftN "n" 1) gSq)) = true :=
      idxNe_mulE (by simp [idxNe]) hg1
    have hw : substitute (.sym "n") (shiftN "n" ((1 : ℕ) : ℚ)) (mulE (.num 1) (.num (-1))) = .num (-1) := by
      simp [substitute, mulE]
    simp only [computeWA, upperStep, if_true, ne_eq, not_true, if_false, zero_add, gt_iff_lt, Nat.zero_lt_one, hw]
    rw [eval_subE, eval_subst_shift _ (idxNe_substN (idxNe_shiftN _ _) hg2), eval_subst_shift _ hg2, eval_subst_shift _ hg2,
      negE, eval_mulE, eval_mulE, eval_subst_shift _ hg, eval_subst_shift _ hg]
    simp [eval, gSq, withX, realInterp]
    intro h
    ring_nf at h
    linarith

/-! ### A concrete case -/

/-- `x(n) = sum(k, 0, n-1, x(k))` meets the hypotheses of `C106_solution_partial`: the associated first order recurrence is
`x(n) = 2 x(n-1)` with solution `2^n x(0)`. -/
example (X : ℝ → ℝ) (hX : SolvesWA (realInterp 0) "n" (fun _ => 0) (.num 1) (.num 0) 0 false X) (N : ℕ) (hN : 0 < N) :
    X N = 2 ^ ((N : ℝ) - 1) * X 0 := by
  have hr : Regular (realInterp 0) "n" (fun _ => 0) (.num 1) (.num 0) 0 false :=
    ⟨by simp [idxNe], by simp [idxNe], by simp [hasX], by simp [hasX], by simp, by simp [eval], by simp⟩
  have hwa : rewriteWA "n" false 0 (.num 1) (.num 0) 0
      = some ⟨.num 1, .num 0, .num 1, .num 0, 0, false, firstOrderRhs "n" (.num 1) (.num 0), 0⟩ := by
    simp [rewriteWA, upperStep]
  have hsol := C106_solution_partial hr hwa (by decide)
    (sol1 := .mul [.pow (.num 2) (.sym "n"), .fn .x [.num 0]]) (by intro r _; simp [x0ok])
    (by
      intro Y hY M _
      have h2 : ∀ M : ℕ, Y M = 2 ^ M * Y 0 := by
        intro M
        induction M with
        | zero => simp
        | succ M ih =>
          have h := hY (M + 1) (by omega)
          rw [eval_firstOrderRhs _ (by simp [idxNe]) (by simp [idxNe])] at h
          simp [eval, withX] at h
          push_cast
          rw [h, ih]
          ring
      simp [eval, withX, realInterp, h2 M])
    X hX N hN
  rw [← hsol]
  have h11 : ¬ (1 : ℚ) = -1 := by norm_num
  simp [computeWA, substitute, addE, mulE, shiftN, powE, h11]
  simp [eval, withX, realInterp]
  exact Or.inl (by ring_nf)

end Purrs.WeightedAvg
