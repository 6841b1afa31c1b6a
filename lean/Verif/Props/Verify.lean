import Verif.Model.Verify
import Verif.Props.WeightedAvg

/-!
# C40: what a positive verdict of the verification means

The specification: a sequence `X` solves the recurrence from `s` on if `X(m)` is the value of the right-hand side for all
`m ≥ s` (`SolvesAt`); a candidate is right if it has the value `X(m)` for every solution `X` and every `m` from the first
valid index on.
-/

set_option linter.unusedSectionVars false

namespace Purrs.Verify

open Purrs Purrs.OrderRed Purrs.WeightedAvg
open Function (update update_of_ne update_self update_comm)

variable {K : Type} [Field K] [CharZero K] (I : Interp K)

/-! ### Sums of exponentials -/

/-- The sequence is a combination of `T` exponentials. -/
def ExpSum (T : ℕ) (f : ℕ → K) : Prop := ∃ b γ : Fin T → K, ∀ r, f r = ∑ i, γ i * b i ^ r

/-- A combination of `T` exponentials with `T` zeros at the beginning is zero. -/
theorem expSum_zero : ∀ (T : ℕ) (f : ℕ → K), ExpSum T f → (∀ r < T, f r = 0) → ∀ r, f r = 0
  | 0, f, ⟨b, γ, h⟩, _, r => by simpa using h r
  | T + 1, f, ⟨b, γ, h⟩, hz, r => by
    have hg : ∀ r, f (r + 1) - b (Fin.last T) * f r = 0 := by
      refine expSum_zero T _ ⟨fun i => b i.castSucc, fun i => γ i.castSucc * (b i.castSucc - b (Fin.last T)), ?_⟩ ?_
      · intro r
        show f (r + 1) - b (Fin.last T) * f r = ∑ i : Fin T, γ i.castSucc * (b i.castSucc - b (Fin.last T)) * b i.castSucc ^ r
        rw [h, h, Fin.sum_univ_castSucc, Fin.sum_univ_castSucc, mul_add, Finset.mul_sum]
        have : ∀ i : Fin T, γ i.castSucc * (b i.castSucc - b (Fin.last T)) * b i.castSucc ^ r
            = γ i.castSucc * b i.castSucc ^ (r + 1) - b (Fin.last T) * (γ i.castSucc * b i.castSucc ^ r) := by
          intro i; ring
        simp only [this, Finset.sum_sub_distrib]
        ring
      · intro r hr
        show f (r + 1) - b (Fin.last T) * f r = 0
        rw [hz _ (by omega), hz _ (by omega)]; ring
    induction r with
    | zero => exact hz 0 (by omega)
    | succ r ih => have := hg r; rw [ih] at this; simpa using this

/-! ### Substitutions for `x(n - d)` -/

theorem has_x_of_noX {l : List Expr} {e : Expr} (hx : hasX e = false) : has (.fn .x l) e = false := by
  induction e using Expr.ind with
  | num q => simp [has]
  | const q => simp [has]
  | sym s => simp [has]
  | add m ih => simp [hasX] at hx; rw [has]; simp; exact fun a ha => ih a ha (hx a ha)
  | mul m ih => simp [hasX] at hx; rw [has]; simp; exact fun a ha => ih a ha (hx a ha)
  | pow b e hb he => simp [hasX] at hx; rw [has]; simp; exact ⟨hb hx.1, he hx.2⟩
  | fn f m ih =>
    have hf : f ≠ .x := by rintro rfl; simp [hasX] at hx
    simp [hasX, hf] at hx; rw [has]; simp [hf]; exact fun a ha => ih a ha (hx a ha)
  | binder k i a b c hi ha hb hc =>
    simp [hasX] at hx; rw [has]; simp [hi hx.1.1.1, ha hx.1.1.2, hb hx.1.2, hc hx.2]

/-- The unknown occurs only as `x(n - d)` with `d` in `ds`, and not below `sum` and `prod`. -/
def xOut (n : String) (ds : List ℕ) : Expr → Bool
  | .add l => (l.map fun a => xOut n ds a).all id
  | .mul l => (l.map fun a => xOut n ds a).all id
  | .pow b e => xOut n ds b && xOut n ds e
  | .fn f l => if f = .x then ds.any fun d => decide (l = [shiftN n (-(d : ℚ))]) else (l.map fun a => xOut n ds a).all id
  | .binder k i lo up body => !hasX (.binder k i lo up body) && idxNe n (.binder k i lo up body)
  | _ => true

theorem xOut_addE {n : String} {ds : List ℕ} {a b : Expr} (ha : xOut n ds a = true) (hb : xOut n ds b = true) :
    xOut n ds (addE a b) = true := by
  cases a <;> cases b <;> simp only [addE] <;> (try split) <;> simp_all [xOut]

theorem xOut_mulE {n : String} {ds : List ℕ} {a b : Expr} (ha : xOut n ds a = true) (hb : xOut n ds b = true) :
    xOut n ds (mulE a b) = true := by
  cases a <;> cases b <;> simp only [mulE] <;> (try split) <;> (try split) <;> simp_all [xOut]

theorem xOut_powE {n : String} {ds : List ℕ} {a b : Expr} (ha : xOut n ds a = true) (hb : xOut n ds b = true) :
    xOut n ds (powE a b) = true := by
  cases a <;> cases b <;> simp only [powE] <;> (try split) <;> (try split) <;> simp_all [xOut]

theorem xOut_of_noX {n : String} {ds : List ℕ} {e : Expr} (hx : hasX e = false) (hi : idxNe n e = true) :
    xOut n ds e = true := by
  induction e using Expr.ind with
  | num q => simp [xOut]
  | const q => simp [xOut]
  | sym s => simp [xOut]
  | add l ih => simp [hasX] at hx; simp [idxNe] at hi; simp [xOut]; exact fun a ha => ih a ha (hx a ha) (hi a ha)
  | mul l ih => simp [hasX] at hx; simp [idxNe] at hi; simp [xOut]; exact fun a ha => ih a ha (hx a ha) (hi a ha)
  | pow b e hb he => simp [hasX] at hx; simp [idxNe] at hi; simp [xOut]; exact ⟨hb hx.1 hi.1, he hx.2 hi.2⟩
  | fn f l ih =>
    have hf : f ≠ .x := by rintro rfl; simp [hasX] at hx
    simp [hasX, hf] at hx; simp [idxNe] at hi; simp [xOut, hf]
    exact fun a ha => ih a ha (hx a ha) (hi a ha)
  | binder k i a b c hi' ha hb hc => simp [xOut, hx, hi]

theorem noX_of_xOut_nil {n : String} {e : Expr} (h : xOut n [] e = true) : hasX e = false ∧ idxNe n e = true := by
  induction e using Expr.ind with
  | num q => simp [hasX, idxNe]
  | const q => simp [hasX, idxNe]
  | sym s => simp [hasX, idxNe]
  | add l ih => simp [xOut] at h; simp [hasX, idxNe]; exact ⟨fun a ha => (ih a ha (h a ha)).1, fun a ha => (ih a ha (h a ha)).2⟩
  | mul l ih => simp [xOut] at h; simp [hasX, idxNe]; exact ⟨fun a ha => (ih a ha (h a ha)).1, fun a ha => (ih a ha (h a ha)).2⟩
  | pow b e hb he => simp [xOut] at h; simp [hasX, idxNe, hb h.1, he h.2]
  | fn f l ih =>
    by_cases hf : f = .x
    · simp [xOut, hf] at h
    · simp [xOut, hf] at h
      simp [hasX, idxNe, hf]; exact ⟨fun a ha => (ih a ha (h a ha)).1, fun a ha => (ih a ha (h a ha)).2⟩
  | binder k i a b c hi' ha hb hc => simpa [xOut] using h

theorem shiftN_inj {n : String} {a b : ℚ} (ha : a ≠ 0) (hb : b ≠ 0) (h : shiftN n a = shiftN n b) : a = b := by
  simpa [shiftN, addE, ha, hb] using h

/-- A decrement that does not occur. -/
theorem xOut_not_has {n : String} {d : ℕ} {ds : List ℕ} {e : Expr} (he : xOut n (d :: ds) e = true)
    (hh : has (xDec n d) e = false) : xOut n ds e = true := by
  induction e using Expr.ind with
  | num q => simp [xOut]
  | const q => simp [xOut]
  | sym s => simp [xOut]
  | add l ih =>
    rw [has] at hh
    simp [xOut] at he; simp at hh; simp [xOut]
    exact fun a ha => ih a ha (he a ha) (hh.2 a ha)
  | mul l ih =>
    rw [has] at hh
    simp [xOut] at he; simp at hh; simp [xOut]
    exact fun a ha => ih a ha (he a ha) (hh.2 a ha)
  | pow b e hb he' =>
    rw [has] at hh
    simp [xOut] at he; simp at hh; simp [xOut]
    exact ⟨hb he.1 hh.2.1, he' he.2 hh.2.2⟩
  | fn f l ih =>
    rw [has] at hh
    by_cases hf : f = .x
    · subst hf
      simp [xDec] at hh
      have : l ≠ [shiftN n (-(d : ℚ))] := hh.1
      simpa [xOut, this] using he
    · simp [xOut, hf] at he; simp at hh; simp [xOut, hf]
      exact fun a ha => ih a ha (he a ha) (hh.2 a ha)
  | binder k i a b c hi' ha hb hc => simpa [xOut] using he

theorem subX_keep {s r e : Expr} (hh : has s e = false) : subX s r e = e := by
  have h1 : e ≠ s := by rintro rfl; rw [has.eq_def] at hh; simp at hh
  rw [subX.eq_def, if_neg h1, if_pos hh]

/-- One substitution. -/
theorem subst_xDec {n : String} {d : ℕ} {ds : List ℕ} {r : Expr} (hrx : hasX r = false) (hri : idxNe n r = true)
    {e : Expr} (he : xOut n (d :: ds) e = true) :
    xOut n ds (subX (xDec n d) r e) = true ∧
    ∀ (Y : K → K) (ρ : String → K), Y (ρ n - d) = eval (withX I Y) ρ r →
      eval (withX I Y) ρ (subX (xDec n d) r e) = eval (withX I Y) ρ e := by
  induction e using Expr.ind with
  | num q => rw [subX_keep (by simp [has, xDec])]; exact ⟨by simp [xOut], fun _ _ _ => rfl⟩
  | const q => rw [subX_keep (by simp [has, xDec])]; exact ⟨by simp [xOut], fun _ _ _ => rfl⟩
  | sym s => rw [subX_keep (by simp [has, xDec])]; exact ⟨by simp [xOut], fun _ _ _ => rfl⟩
  | add m ih =>
    by_cases hh : has (xDec n d) (.add m) = false
    · rw [subX_keep hh]
      exact ⟨xOut_not_has he hh, fun _ _ _ => rfl⟩
    simp [xOut] at he
    rw [subX, if_neg (by simp [xDec]), if_neg hh]
    refine ⟨?_, ?_⟩
    · have : ∀ k : List Expr, (∀ a ∈ k, a ∈ m) →
          xOut n ds (k.foldr (fun a acc => addE acc (subX (xDec n d) r a)) (.num 0)) = true := by
        intro k hk
        induction k with
        | nil => simp [xOut]
        | cons a k ihk =>
          exact xOut_addE (ihk fun b hb => hk b (List.mem_cons_of_mem _ hb))
            (ih a (hk a List.mem_cons_self) (he a (hk a List.mem_cons_self))).1
      exact this m fun _ h => h
    · intro Y ρ hY
      simp only [eval_foldr_addE, eval, Rat.cast_zero, zero_add]
      congr 1
      exact List.map_congr_left fun a ha => (ih a ha (he a ha)).2 Y ρ hY
  | mul m ih =>
    by_cases hh : has (xDec n d) (.mul m) = false
    · rw [subX_keep hh]
      exact ⟨xOut_not_has he hh, fun _ _ _ => rfl⟩
    simp [xOut] at he
    rw [subX, if_neg (by simp [xDec]), if_neg hh]
    refine ⟨?_, ?_⟩
    · have : ∀ k : List Expr, (∀ a ∈ k, a ∈ m) →
          xOut n ds (k.foldr (fun a acc => mulE acc (subX (xDec n d) r a)) (.num 1)) = true := by
        intro k hk
        induction k with
        | nil => simp [xOut]
        | cons a k ihk =>
          exact xOut_mulE (ihk fun b hb => hk b (List.mem_cons_of_mem _ hb))
            (ih a (hk a List.mem_cons_self) (he a (hk a List.mem_cons_self))).1
      exact this m fun _ h => h
    · intro Y ρ hY
      simp only [eval_foldr_mulE, eval, Rat.cast_one, one_mul]
      congr 1
      exact List.map_congr_left fun a ha => (ih a ha (he a ha)).2 Y ρ hY
  | pow b e ihb ihe =>
    by_cases hh : has (xDec n d) (.pow b e) = false
    · rw [subX_keep hh]
      exact ⟨xOut_not_has he hh, fun _ _ _ => rfl⟩
    simp [xOut] at he
    rw [subX, if_neg (by simp [xDec]), if_neg hh]
    refine ⟨xOut_powE (ihb he.1).1 (ihe he.2).1, ?_⟩
    intro Y ρ hY
    rw [eval_powE, (ihb he.1).2 Y ρ hY, (ihe he.2).2 Y ρ hY]
    simp only [eval]
  | fn f m ih =>
    by_cases hh : has (xDec n d) (.fn f m) = false
    · rw [subX_keep hh]
      exact ⟨xOut_not_has he hh, fun _ _ _ => rfl⟩
    by_cases hf : f = .x
    · subst hf
      by_cases hm : m = [shiftN n (-(d : ℚ))]
      · subst hm
        rw [subX, if_pos (show Expr.fn Fn.x [shiftN n (-(d : ℚ))] = xDec n d from rfl)]
        refine ⟨xOut_of_noX hrx hri, fun Y ρ hY => ?_⟩
        rw [← hY, eval_x, eval_shiftN]
        simp [sub_eq_add_neg]
      · exfalso
        apply hh
        have h2 : (ds.any fun d => decide (m = [shiftN n (-(d : ℚ))])) = true := by
          simpa [xOut, hm] using he
        obtain ⟨d', hd', h3⟩ := List.any_eq_true.mp h2
        have h3 : m = [shiftN n (-(d' : ℚ))] := by simpa using h3
        rw [has]
        have h4 : has (xDec n d) (shiftN n (-(d' : ℚ))) = false := has_x_of_noX (hasX_shiftN n _)
        subst h3
        have h5 : ¬ Expr.fn Fn.x [shiftN n (-(d' : ℚ))] = xDec n d := by simpa [xDec] using hm
        simp [h4, h5]
    · simp [xOut, hf] at he
      rw [subX, if_neg (by simp [hf, xDec]), if_neg hh]
      refine ⟨?_, ?_⟩
      · simp [xOut, hf]; exact fun a ha => (ih a ha (he a ha)).1
      · intro Y ρ hY
        simp only [eval, List.map_map]
        congr 1
        exact List.map_congr_left fun a ha => (ih a ha (he a ha)).2 Y ρ hY
  | binder k i a b c hi' ha hb hc =>
    have he' := he
    simp only [xOut, Bool.and_eq_true, Bool.not_eq_true'] at he'
    have hk : has (xDec n d) (.binder k i a b c) = false := has_x_of_noX he'.1
    rw [subX_keep hk]
    exact ⟨xOut_of_noX he'.1 he'.2, fun _ _ _ => rfl⟩

/-- The loop of substitutions. -/
theorem substLoop_spec (R : Rec) (s : ℕ → Expr) (hsx : ∀ d, hasX (s d) = false) (hsi : ∀ d, idxNe R.n (s d) = true) :
    ∀ (ds : List ℕ) (e : Expr), xOut R.n ds e = true →
      (hasX (substLoop R s ds e) = false ∧ idxNe R.n (substLoop R s ds e) = true) ∧
      ∀ (Y : K → K) (ρ : String → K), (∀ d ∈ ds, Y (ρ R.n - d) = eval (withX I Y) ρ (s d)) →
        eval (withX I Y) ρ (substLoop R s ds e) = eval (withX I Y) ρ e := by
  intro ds
  induction ds with
  | nil => intro e he; exact ⟨noX_of_xOut_nil he, fun Y ρ _ => rfl⟩
  | cons d ds ih =>
    intro e he
    by_cases hh : has (xDec R.n d) e = true
    · obtain ⟨h1, h2⟩ := subst_xDec I (hsx d) (hsi d) he
      obtain ⟨h3, h4⟩ := ih _ h1
      have e1 : substLoop R s (d :: ds) e = substLoop R s ds (subX (xDec R.n d) (s d) e) := by
        simp [substLoop, hh]
      rw [e1]
      refine ⟨h3, fun Y ρ hY => ?_⟩
      rw [h4 Y ρ fun d' hd' => hY d' (List.mem_cons_of_mem _ hd')]
      exact h2 Y ρ (hY d List.mem_cons_self)
    · have h1 := xOut_not_has he (by simpa using hh)
      obtain ⟨h3, h4⟩ := ih _ h1
      have e1 : substLoop R s (d :: ds) e = substLoop R s ds e := by simp [substLoop, hh]
      rw [e1]
      exact ⟨h3, fun Y ρ hY => h4 Y ρ fun d' hd' => hY d' (List.mem_cons_of_mem _ hd')⟩

/-! ### Hypotheses -/

/-- A transformation of expressions keeps the values at all `n ≥ start` and introduces neither the unknown nor a summation
index `n`. -/
structure Keeps (n : String) (ρ : String → K) (start : ℕ) (f : Expr → Expr) : Prop where
  val : ∀ (X : K → K) (e : Expr), hasX e = false → idxNe n e = true → ∀ m : ℕ, start ≤ m →
    eval (withX I X) (update ρ n m) (f e) = eval (withX I X) (update ρ n m) e
  noX : ∀ e, hasX e = false → idxNe n e = true → hasX (f e) = false
  idx : ∀ e, hasX e = false → idxNe n e = true → idxNe n (f e) = true

/-- The simplifications are correct. -/
structure OracleOk (R : Rec) (O : Oracle) (ρ : String → K) : Prop where
  simp : Keeps I R.n ρ (R.first + R.order) O.simp
  simpSum : Keeps I R.n ρ (R.first + R.order) O.simpSum
  rw : Keeps I R.n ρ (R.first + R.order) O.rw
  expand : Keeps I R.n ρ (R.first + R.order) O.expand

/-- A linear recurrence of positive order with right-hand side `Σ a_d(n) x(n - d) + p(n)`, to which the order reduction was
not applied. -/
structure RecOk (R : Rec) (ρ : String → K) (a : ℕ → ℕ → K) : Prop where
  out : xOut R.n (List.range' 1 R.order) R.rhs = true
  inX : hasX R.inhom = false
  inI : idxNe R.n R.inhom = true
  lin : ∀ (Y : K → K) (m : ℕ), R.first + R.order ≤ m →
    eval (withX I Y) (update ρ R.n m) R.rhs
      = (∑ d ∈ Finset.Icc 1 R.order, a d m * Y ((m : K) - d)) + eval (withX I Y) (update ρ R.n m) R.inhom
  pos : 1 ≤ R.order
  gcd : R.gcd = 1
  linear : R.linear = true
  red : R.reduced = none

/-- The value of an expression without the unknown. -/
noncomputable def valAt (n : String) (ρ : String → K) (e : Expr) (v : K) : K := eval (withX I fun _ => 0) (update ρ n v) e

theorem eval_valAt {n : String} {ρ : String → K} {e : Expr} (he : hasX e = false) (X : K → K) (v : K) :
    eval (withX I X) (update ρ n v) e = valAt I n ρ e v := eval_noX I _ _ e he _

/-- The candidate satisfies the homogeneous recurrence. -/
def HomSat (R : Rec) (ρ : String → K) (a : ℕ → ℕ → K) (e : Expr) : Prop :=
  ∀ m : ℕ, R.first + R.order ≤ m →
    valAt I R.n ρ e m = ∑ d ∈ Finset.Icc 1 R.order, a d m * valAt I R.n ρ e ((m : K) - d)

/-- The candidate satisfies the recurrence. -/
def InhomSat (R : Rec) (ρ : String → K) (a : ℕ → ℕ → K) (e : Expr) : Prop :=
  ∀ m : ℕ, R.first + R.order ≤ m →
    valAt I R.n ρ e m = (∑ d ∈ Finset.Icc 1 R.order, a d m * valAt I R.n ρ e ((m : K) - d)) + valAt I R.n ρ R.inhom m

section
variable {I} {R : Rec} {O : Oracle} {ρ : String → K} {a : ℕ → ℕ → K}

theorem keeps_all {f : Expr → Expr} {n : String} {start : ℕ} (h : Keeps I n ρ start f) {e : Expr} (hx : hasX e = false)
    (hi : idxNe n e = true) {m : ℕ} (hm : start ≤ m) : valAt I n ρ (f e) m = valAt I n ρ e m :=
  h.val _ e hx hi m hm

theorem loop_val {s : ℕ → Expr} {e rhs : Expr} {m : ℕ} {ds : List ℕ}
    (hsx : ∀ d, hasX (s d) = false) (hsi : ∀ d, idxNe R.n (s d) = true)
    (hs : ∀ d, valAt I R.n ρ (s d) m = valAt I R.n ρ e ((m : K) - d)) (hr : xOut R.n ds rhs = true) :
    valAt I R.n ρ (substLoop R s ds rhs) m = eval (withX I (valAt I R.n ρ e)) (update ρ R.n m) rhs := by
  obtain ⟨⟨h1, h2⟩, h3⟩ := substLoop_spec I R s hsx hsi ds rhs hr
  rw [← h3 (valAt I R.n ρ e) (update ρ R.n m), eval_valAt I h1]
  intro d _
  rw [eval_valAt I (hsx d), hs d]
  simp

theorem xOut_perm {n : String} {ds ds' : List ℕ} (h : ∀ d ∈ ds, d ∈ ds') {e : Expr} (he : xOut n ds e = true) :
    xOut n ds' e = true := by
  induction e using Expr.ind with
  | num q => simp [xOut]
  | const q => simp [xOut]
  | sym s => simp [xOut]
  | add l ih => simp [xOut] at he ⊢; exact fun a ha => ih a ha (he a ha)
  | mul l ih => simp [xOut] at he ⊢; exact fun a ha => ih a ha (he a ha)
  | pow b e hb he' => simp [xOut] at he ⊢; exact ⟨hb he.1, he' he.2⟩
  | fn f l ih =>
    by_cases hf : f = .x
    · simp [xOut, hf] at he ⊢
      obtain ⟨d, hd, h2⟩ := he
      exact ⟨d, h d hd, h2⟩
    · simp [xOut, hf] at he ⊢; exact fun a ha => ih a ha (he a ha)
  | binder k i a b c hi ha hb hc => simpa [xOut] using he

theorem homPart (hR : RecOk I R ρ a) : xOut R.n (List.range' 1 R.order) (subE R.rhs R.inhom) = true ∧
    ∀ (Y : K → K) (m : ℕ), R.first + R.order ≤ m →
      eval (withX I Y) (update ρ R.n m) (subE R.rhs R.inhom) = ∑ d ∈ Finset.Icc 1 R.order, a d m * Y ((m : K) - d) := by
  refine ⟨xOut_addE hR.out (xOut_mulE (by simp [xOut]) (xOut_of_noX hR.inX hR.inI)), fun Y m hm => ?_⟩
  rw [eval_subE, hR.lin Y m hm]; ring

theorem shift_val (hO : OracleOk I R O ρ) {e : Expr} (hx : hasX e = false) (hi : idxNe R.n e = true) (d : ℕ) :
    hasX (shiftSimp R O e d) = false ∧ idxNe R.n (shiftSimp R O e d) = true ∧
    ∀ m : ℕ, R.first + R.order ≤ m → valAt I R.n ρ (shiftSimp R O e d) m = valAt I R.n ρ e ((m : K) - d) := by
  have h1 : hasX (substitute (.sym R.n) (shiftN R.n (-(d : ℚ))) e) = false := hasX_substN (hasX_shiftN _ _) hx
  have h2 : idxNe R.n (substitute (.sym R.n) (shiftN R.n (-(d : ℚ))) e) = true := idxNe_substN (idxNe_shiftN _ _) hi
  have h3 := hO.simp.noX _ h1 h2
  have h4 := hO.simp.idx _ h1 h2
  refine ⟨hO.simpSum.noX _ h3 h4, hO.simpSum.idx _ h3 h4, fun m hm => ?_⟩
  rw [shiftSimp, keeps_all hO.simpSum h3 h4 hm, keeps_all hO.simp h1 h2 hm, valAt, eval_subst_shift _ hi]
  simp [valAt, sub_eq_add_neg]

theorem residual_val (hO : OracleOk I R O ρ) {e rhs : Expr} (hx : hasX e = false) (hi : idxNe R.n e = true)
    (hr : xOut R.n (List.range' 1 R.order) rhs = true) :
    (hasX (residual R O rhs e) = false ∧ idxNe R.n (residual R O rhs e) = true) ∧
    ∀ m : ℕ, R.first + R.order ≤ m → valAt I R.n ρ (residual R O rhs e) m
      = valAt I R.n ρ e m - eval (withX I (valAt I R.n ρ e)) (update ρ R.n m) rhs := by
  obtain ⟨⟨l1, l2⟩, -⟩ := substLoop_spec I R (shiftSimp R O e) (fun d => (shift_val hO hx hi d).1)
    (fun d => (shift_val hO hx hi d).2.1) _ _ hr
  have s1 := hasX_subE hx l1
  have s2 := idxNe_subE hi l2
  have r1 := hO.rw.noX _ s1 s2
  have r2 := hO.rw.idx _ s1 s2
  refine ⟨⟨hO.simp.noX _ r1 r2, hO.simp.idx _ r1 r2⟩, fun m hm => ?_⟩
  rw [residual, keeps_all hO.simp r1 r2 hm, keeps_all hO.rw s1 s2 hm, valAt, eval_subE]
  congr 1
  exact loop_val (fun d => (shift_val hO hx hi d).1) (fun d => (shift_val hO hx hi d).2.1)
    (fun d => (shift_val hO hx hi d).2.2 m hm) hr

theorem valAt_zero {n : String} (v : K) : valAt I n ρ (.num 0) v = 0 := by simp [valAt, eval]

/-- A residual, possibly simplified again, that is literally zero. -/
theorem residual_zero (hO : OracleOk I R O ρ) {e rhs : Expr} (hx : hasX e = false) (hi : idxNe R.n e = true)
    (hr : xOut R.n (List.range' 1 R.order) rhs = true)
    (hz : residual R O rhs e = .num 0 ∨ O.simp (residual R O rhs e) = .num 0) (m : ℕ) (hm : R.first + R.order ≤ m) :
    valAt I R.n ρ e m = eval (withX I (valAt I R.n ρ e)) (update ρ R.n m) rhs := by
  obtain ⟨⟨h1, h2⟩, h3⟩ := residual_val hO hx hi hr
  have h4 : valAt I R.n ρ (residual R O rhs e) m = 0 := by
    rcases hz with h | h
    · rw [h, valAt_zero]
    · rw [← keeps_all hO.simp h1 h2 hm, h, valAt_zero]
  rw [h3 m hm] at h4
  exact sub_eq_zero.mp h4

theorem trad_hom (hO : OracleOk I R O ρ) (hR : RecOk I R ρ a) {e : Expr} (hx : hasX e = false) (hi : idxNe R.n e = true)
    (h : traditional3 R O e = true) : HomSat I R ρ a e := by
  intro m hm
  rw [residual_zero hO hx hi (homPart hR).1 (by simpa [traditional3] using h) m hm, (homPart hR).2 _ m hm]

theorem step4_inhom (hO : OracleOk I R O ρ) (hR : RecOk I R ρ a) {e : Expr} (hx : hasX e = false) (hi : idxNe R.n e = true)
    {p : Bool} (h : step4 R O e p = some (yes p)) : InhomSat I R ρ a e := by
  intro m hm
  have hz : residual R O R.rhs e = .num 0 ∨ O.simp (residual R O R.rhs e) = .num 0 := by
    unfold step4 at h
    rw [hR.red] at h
    split_ifs at h with h1 h2
    · exact .inl h1
    · exact .inr h2
    · cases p <;> simp [yes] at h
  rw [residual_zero hO hx hi hR.out hz m hm, hR.lin _ m hm, eval_valAt I hR.inX]

end

/-! ### Weighted sums of vectors -/

/-- `Σ_k w_k v_k`. -/
def wsum (w : ℕ → K) (ev : Expr → K) (v : List Expr) : K := ∑ k ∈ Finset.range v.length, w k * ev (v.getD k (.num 0))

/-- No element contains the unknown, the summation indices are not `n`. -/
def Clean (n : String) (v : List Expr) : Prop := ∀ c ∈ v, hasX c = false ∧ idxNe n c = true

theorem length_addAt (v : List Expr) (i : ℕ) (e : Expr) : (addAt v i e).length = v.length := by simp [addAt]

theorem getD_addAt {v : List Expr} {i : ℕ} {e : Expr} (hi : i < v.length) (k : ℕ) :
    (addAt v i e).getD k (.num 0) = if k = i then addE (v.getD i (.num 0)) e else v.getD k (.num 0) := by
  by_cases h : k = i
  · subst h; simp [addAt, List.getD_eq_getElem?_getD, hi]
  · simp [addAt, List.getD_eq_getElem?_getD, Ne.symm h, h]

theorem wsum_addAt {w : ℕ → K} {ev : Expr → K} (hev : ∀ a b, ev (addE a b) = ev a + ev b) {v : List Expr} {i : ℕ}
    {e : Expr} (hi : i < v.length) : wsum w ev (addAt v i e) = wsum w ev v + w i * ev e := by
  unfold wsum
  rw [length_addAt]
  have : ∀ k ∈ Finset.range v.length, w k * ev ((addAt v i e).getD k (.num 0))
      = w k * ev (v.getD k (.num 0)) + if k = i then w i * ev e else 0 := by
    intro k _
    rw [getD_addAt hi]
    split_ifs with h
    · subst h; rw [hev]; ring
    · ring
  rw [Finset.sum_congr rfl this, Finset.sum_add_distrib, Finset.sum_ite_eq', if_pos (by simpa using hi)]

theorem clean_getD {n : String} {v : List Expr} (h : Clean n v) (k : ℕ) :
    hasX (v.getD k (.num 0)) = false ∧ idxNe n (v.getD k (.num 0)) = true := by
  by_cases hk : k < v.length
  · have : v.getD k (.num 0) ∈ v := by
      rw [List.getD_eq_getElem?_getD, List.getElem?_eq_getElem hk]; simp
    exact h _ this
  · rw [List.getD_eq_getElem?_getD, List.getElem?_eq_none (by omega)]
    simp [hasX, idxNe]

theorem clean_addAt {n : String} {v : List Expr} (h : Clean n v) {i : ℕ} {e : Expr} (hx : hasX e = false)
    (hi : idxNe n e = true) : Clean n (addAt v i e) := by
  intro c hc
  rcases List.mem_or_eq_of_mem_set hc with h1 | h1
  · exact h c h1
  · subst h1
    exact ⟨hasX_addE (clean_getD h i).1 hx, idxNe_addE (clean_getD h i).2 hi⟩

theorem clean_replicate (n : String) (k : ℕ) : Clean n (List.replicate k (.num 0)) := by
  intro c hc
  rw [List.eq_of_mem_replicate hc]
  simp [hasX, idxNe]

theorem wsum_replicate {w : ℕ → K} {ev : Expr → K} (h0 : ev (.num 0) = 0) (k : ℕ) :
    wsum w ev (List.replicate k (.num 0)) = 0 := by
  unfold wsum
  refine Finset.sum_eq_zero fun i _ => ?_
  have : (List.replicate k (Expr.num 0)).getD i (.num 0) = .num 0 := by
    rw [List.getD_eq_getElem?_getD, List.getElem?_replicate]; split <;> rfl
  rw [this, h0, mul_zero]

/-! ### The new method -/

theorem natOf_spec {e : Expr} {k : ℕ} (h : natOf e = some k) : e = .num k := by
  cases e with
  | num q =>
    simp only [natOf] at h
    split_ifs at h with hq
    obtain rfl := Option.some.inj h
    have h1 : ((q.num.toNat : ℤ)) = q.num := Int.toNat_of_nonneg (Rat.num_nonneg.mpr hq.2)
    have h2 : (q : ℚ) = q.num := (Rat.coe_int_num_of_den_eq_one hq.1).symm
    congr 1
    conv_lhs => rw [h2, ← h1]
    exact Int.cast_natCast _
  | _ => simp [natOf] at h

theorem powerOfN_val {n : String} {f : Expr} {k : ℕ} (h : powerOfN n f = some (some k)) (J : Interp K) (ρ : String → K) :
    eval J ρ f = ρ n ^ k := by
  cases f with
  | sym s =>
    simp only [powerOfN] at h
    split_ifs at h with hs
    obtain rfl : 1 = k := by simpa using h
    subst hs; simp [eval]
  | pow b e =>
    simp only [powerOfN] at h
    split_ifs at h with hs
    have h1 : natOf e = some k := by simpa using h
    rw [natOf_spec h1, hs]
    simp only [eval]
    rw [← pw_nat J]; simp
  | _ => simp [powerOfN] at h

theorem eval_prodOf (l : List Expr) (J : Interp K) (ρ : String → K) :
    eval J ρ (prodOf l) = (l.map fun a => eval J ρ a).prod := by
  match l with
  | [] => simp [prodOf, eval]
  | [e] => simp [prodOf]
  | _ :: _ :: _ => simp [prodOf, eval]

theorem clean_prodOf {n : String} {l : List Expr} (h : Clean n l) : hasX (prodOf l) = false ∧ idxNe n (prodOf l) = true := by
  match l with
  | [] => simp [prodOf, hasX, idxNe]
  | [e] => simpa [prodOf] using h e (by simp)
  | a :: b :: l => simp only [prodOf, hasX, idxNe]; simp; exact ⟨⟨(h a (by simp)).1, (h b (by simp)).1, fun c hc => (h c (by simp [hc])).1⟩,
      (h a (by simp)).2, (h b (by simp)).2, fun c hc => (h c (by simp [hc])).2⟩

theorem takePower_val {n : String} : ∀ {l pre : List Expr} {k : ℕ} {c : Expr}, takePower n pre l = some (k, c) →
    (∀ (J : Interp K) (ρ : String → K), ((pre ++ l).map fun a => eval J ρ a).prod = ρ n ^ k * eval J ρ c) ∧
    (Clean n (pre ++ l) → hasX c = false ∧ idxNe n c = true)
  | [], pre, k, c, h => by
    simp only [takePower, Option.some.injEq, Prod.mk.injEq] at h
    obtain ⟨rfl, rfl⟩ := h
    refine ⟨fun J ρ => by simp [eval], fun hc => ?_⟩
    rw [List.append_nil] at hc
    simp only [hasX, idxNe]; simp
    exact ⟨fun a ha => (hc a ha).1, fun a ha => (hc a ha).2⟩
  | f :: l, pre, k, c, h => by
    rw [takePower] at h
    split at h
    · rename_i k' hk'
      obtain ⟨rfl, rfl⟩ : k' = k ∧ prodOf (pre ++ l) = c := by simpa using h
      refine ⟨fun J ρ => ?_, fun hc => ?_⟩
      · rw [eval_prodOf]
        simp [powerOfN_val hk' J ρ]; ring
      · refine clean_prodOf fun c hc' => hc c ?_
        simp at hc' ⊢; tauto
    · simp at h
    · have := takePower_val h
      simpa using this

theorem cell_val {n : String} {b : Bool} {s : Expr} {k : ℕ} {c : Expr} (h : cell n b s = some (k, c)) :
    ((∀ (J : Interp K) (ρ : String → K), eval J ρ s = ρ n ^ k * eval J ρ c) ∨ (b = false ∧ k = 1 ∧ c = .num 1)) ∧
    (hasX s = false → idxNe n s = true → hasX c = false ∧ idxNe n c = true) := by
  cases s with
  | num q =>
    obtain ⟨rfl, rfl⟩ : 0 = k ∧ Expr.num q = c := by simpa [cell] using h
    exact ⟨.inl fun J ρ => by simp, fun h1 h2 => ⟨h1, h2⟩⟩
  | sym t =>
    cases b with
    | true =>
      obtain ⟨rfl, rfl⟩ : 0 = k ∧ Expr.sym t = c := by simpa [cell] using h
      exact ⟨.inl fun J ρ => by simp, fun h1 h2 => ⟨h1, h2⟩⟩
    | false =>
      obtain ⟨rfl, rfl⟩ : 1 = k ∧ Expr.num 1 = c := by simpa [cell] using h
      exact ⟨.inr ⟨rfl, rfl, rfl⟩, fun _ _ => by simp [hasX, idxNe]⟩
  | pow b' e =>
    simp only [cell] at h
    split_ifs at h with hb
    · cases hk : natOf e with
      | none => simp [hk] at h
      | some k' =>
        obtain ⟨rfl, rfl⟩ : k' = k ∧ Expr.num 1 = c := by simpa [hk] using h
        refine ⟨.inl fun J ρ => ?_, fun _ _ => by simp [hasX, idxNe]⟩
        rw [natOf_spec hk, hb]
        simp only [eval]
        rw [← pw_nat J]; simp
    · obtain ⟨rfl, rfl⟩ : 0 = k ∧ Expr.pow b' e = c := by simpa using h
      exact ⟨.inl fun J ρ => by simp, fun h1 h2 => ⟨h1, h2⟩⟩
  | mul l =>
    have := takePower_val (K := K) (n := n) (l := l) (pre := []) h
    refine ⟨.inl fun J ρ => by rw [← this.1]; simp [eval], fun h1 h2 => this.2 ?_⟩
    simp [hasX] at h1; simp [idxNe] at h2
    exact fun c hc => ⟨h1 c (by simpa using hc), h2 c (by simpa using hc)⟩
  | _ => simp [cell] at h

/-- One summand of the difference. -/
def put (n : String) (b : Bool) (acc : Option (List Expr)) (s : Expr) : Option (List Expr) :=
  acc.bind fun v => (cell n b s).bind fun p => if p.1 < v.length then some (addAt v p.1 p.2) else none

theorem put_some {n : String} {b : Bool} {acc : Option (List Expr)} {s : Expr} {v : List Expr} (h : put n b acc s = some v) :
    ∃ u k c, acc = some u ∧ cell n b s = some (k, c) ∧ k < u.length ∧ v = addAt u k c := by
  unfold put at h
  cases acc with
  | none => simp at h
  | some u =>
    cases hc : cell n b s with
    | none => simp [hc] at h
    | some p =>
      simp only [hc, Option.bind_some] at h
      split_ifs at h with hk
      exact ⟨u, p.1, p.2, rfl, rfl, hk, (Option.some.inj h).symm⟩

theorem put_fold {n : String} {v : List Expr} : ∀ (l : List Expr) (acc : Option (List Expr)),
    l.foldl (put n true) acc = some v →
    ∃ u, acc = some u ∧ v.length = u.length ∧
      (∀ (J : Interp K) (ρ : String → K), wsum (fun k => ρ n ^ k) (eval J ρ) v
        = wsum (fun k => ρ n ^ k) (eval J ρ) u + (l.map fun a => eval J ρ a).sum) ∧
      (Clean n u → Clean n l → Clean n v)
  | [], acc, h => ⟨v, h, rfl, fun J ρ => by simp, fun h1 _ => h1⟩
  | s :: l, acc, h => by
    obtain ⟨u', h1, h2, h3, h4⟩ := put_fold l (put n true acc s) h
    obtain ⟨u, k, c, rfl, h5, h6, rfl⟩ := put_some h1
    refine ⟨u, rfl, by rw [h2, length_addAt], fun J ρ => ?_, fun g1 g2 => ?_⟩
    · rw [h3, wsum_addAt (fun a b => eval_addE J ρ a b) h6]
      rcases (cell_val (K := K) h5).1 with h7 | h7
      · rw [List.map_cons, List.sum_cons, h7 J ρ]; ring
      · simp at h7
    · have h8 := (cell_val (K := K) h5).2 (g2 s (by simp)).1 (g2 s (by simp)).2
      exact h4 (clean_addAt g1 h8.1 h8.2) fun c hc => g2 c (by simp [hc])

theorem cells_val {n : String} {deg : ℕ} {diff : Expr} {v : List Expr} (h : cells n deg diff = some v)
    (hx : hasX diff = false) (hi : idxNe n diff = true) :
    Clean n v ∧ ((∀ (J : Interp K) (ρ : String → K), wsum (fun k => ρ n ^ k) (eval J ρ) v = eval J ρ diff) ∨
      ∃ c ∈ v, c = .num 1) := by
  have h0 : ∀ (J : Interp K) (ρ : String → K),
      wsum (fun k => ρ n ^ k) (eval J ρ) (List.replicate (deg + 1) (.num 0)) = 0 :=
    fun J ρ => wsum_replicate (by simp [eval]) _
  have single : ∀ e, diff = e → put n false (some (List.replicate (deg + 1) (.num 0))) e = some v →
      Clean n v ∧ ((∀ (J : Interp K) (ρ : String → K), wsum (fun k => ρ n ^ k) (eval J ρ) v = eval J ρ diff) ∨
      ∃ c ∈ v, c = .num 1) := by
    rintro e rfl he
    obtain ⟨u, k, c, h1, h2, h3, rfl⟩ := put_some he
    obtain rfl := (Option.some.inj h1).symm
    obtain ⟨h4, h5⟩ := cell_val (K := K) h2
    have h6 := h5 hx hi
    refine ⟨clean_addAt (clean_replicate _ _) h6.1 h6.2, ?_⟩
    rcases h4 with h4 | ⟨-, rfl, rfl⟩
    · left
      intro J ρ
      rw [wsum_addAt (fun a b => eval_addE J ρ a b) h3, h0, h4 J ρ, zero_add]
    · right
      refine ⟨.num 1, ?_, rfl⟩
      have e1 : (addAt (List.replicate (deg + 1) (.num 0)) 1 (.num 1)).getD 1 (.num 0) = .num 1 := by
        rw [getD_addAt h3, if_pos rfl, List.getD_eq_getElem?_getD, List.getElem?_eq_getElem h3]
        simp [addE]
      have h7 : 1 < (addAt (List.replicate (deg + 1) (Expr.num 0)) 1 (.num 1)).length := by rw [length_addAt]; exact h3
      rw [List.getD_eq_getElem?_getD, List.getElem?_eq_getElem h7, Option.getD_some] at e1
      have := List.getElem_mem h7
      rwa [e1] at this
  cases diff with
  | add l =>
    obtain ⟨u, h1, h2, h3, h4⟩ := put_fold (K := K) l _ (show l.foldl (put n true) _ = some v from h)
    obtain rfl := (Option.some.inj h1).symm
    simp [hasX] at hx; simp [idxNe] at hi
    refine ⟨h4 (clean_replicate _ _) fun c hc => ⟨hx c hc, hi c hc⟩, .inl fun J ρ => ?_⟩
    rw [h3, h0, zero_add]; simp [eval]
  | _ => exact single _ rfl h

section
variable {I} {R : Rec} {O : Oracle} {ρ : String → K} {a : ℕ → ℕ → K}

/-- The number of tests and the maximal degree of the new method (src/verify.cc:291-300, 458). -/
def testsOf (R : Rec) (inhomPart : Bool) : ℕ := (if inhomPart then R.numExp else 0) + R.order

/-- See `testsOf`. -/
def degOf (R : Rec) (inhomPart : Bool) : ℕ := (if inhomPart then R.maxDeg else 0) + (maxMult R - 1)

/-- The difference for the candidate belongs to the class of the new method: collected by powers of `n`, each coefficient is a
combination of no more exponentials than there are tests. -/
def InClass (I : Interp K) (R : Rec) (O : Oracle) (ρ : String → K) (e : Expr) (inhomPart : Bool) : Prop :=
  ∀ v, cells R.n (degOf R inhomPart) (newDiff R O inhomPart e) = some v →
    ∀ c ∈ v, ExpSum (testsOf R inhomPart) fun r => valAt I R.n ρ c r

theorem newDiff_val (hO : OracleOk I R O ρ) (hR : RecOk I R ρ a) {e : Expr} (hx : hasX e = false) (hi : idxNe R.n e = true)
    (b : Bool) :
    (hasX (newDiff R O b e) = false ∧ idxNe R.n (newDiff R O b e) = true) ∧
    ∀ m : ℕ, R.first + R.order ≤ m → valAt I R.n ρ (newDiff R O b e) m = valAt I R.n ρ e m -
      eval (withX I (valAt I R.n ρ e)) (update ρ R.n m) (if b then R.rhs else subE R.rhs R.inhom) := by
  have hr : xOut R.n (List.range' 1 R.order).reverse (if b then R.rhs else subE R.rhs R.inhom) = true := by
    refine xOut_perm (ds := List.range' 1 R.order) (fun d hd => by simpa using hd) ?_
    cases b
    · exact (homPart hR).1
    · exact hR.out
  have t1 : ∀ d : ℕ, hasX (substitute (.sym R.n) (shiftN R.n (-(d : ℚ))) e) = false := fun d => hasX_substN (hasX_shiftN _ _) hx
  have t2 : ∀ d : ℕ, idxNe R.n (substitute (.sym R.n) (shiftN R.n (-(d : ℚ))) e) = true :=
    fun d => idxNe_substN (idxNe_shiftN _ _) hi
  obtain ⟨⟨l1, l2⟩, -⟩ := substLoop_spec I R (fun d => substitute (.sym R.n) (shiftN R.n (-(d : ℚ))) e) t1 t2 _ _ hr
  have s1 := hasX_subE hx l1
  have s2 := idxNe_subE hi l2
  have r1 := hO.rw.noX _ s1 s2
  have r2 := hO.rw.idx _ s1 s2
  refine ⟨⟨hO.expand.noX _ r1 r2, hO.expand.idx _ r1 r2⟩, fun m hm => ?_⟩
  unfold newDiff
  dsimp only
  rw [keeps_all hO.expand r1 r2 hm, keeps_all hO.rw s1 s2 hm, valAt, eval_subE]
  congr 1
  refine loop_val t1 t2 (fun d => ?_) hr
  rw [valAt, eval_subst_shift _ hi]
  simp [valAt, sub_eq_add_neg]

theorem subst_num_val {n : String} {e : Expr} (hi : idxNe n e = true) (k : ℕ) (v : K) :
    valAt I n ρ (substitute (.sym n) (.num k) e) v = valAt I n ρ e k := by
  rw [valAt, eval_substN _ (fun ρ s v _ => by simp [eval]) hi]
  simp [eval, valAt]

theorem newMethod_zero (hO : OracleOk I R O ρ) (hR : RecOk I R ρ a) {e : Expr} (hx : hasX e = false) (hi : idxNe R.n e = true)
    {b : Bool} (hc : InClass I R O ρ e b) (h : newMethod R O e b = some true) (m : ℕ) (hm : R.first + R.order ≤ m) :
    valAt I R.n ρ e m
      = eval (withX I (valAt I R.n ρ e)) (update ρ R.n m) (if b then R.rhs else subE R.rhs R.inhom) := by
  obtain ⟨⟨d1, d2⟩, d3⟩ := newDiff_val hO hR hx hi b
  suffices hz : valAt I R.n ρ (newDiff R O b e) m = 0 by
    rw [d3 m hm] at hz; exact sub_eq_zero.mp hz
  have h' : (if newDiff R O b e = .num 0 then some true
      else (cells R.n (degOf R b) (newDiff R O b e)).map (testCells R O (testsOf R b))) = some true := by
    unfold newMethod at h
    by_cases h1 : b = true ∧ R.noPoly = true
    · rw [if_pos h1] at h; simp at h
    · rw [if_neg h1] at h; exact h
  clear h
  rename' h' => h
  split_ifs at h with h2
  · rw [h2, valAt_zero]
  · obtain ⟨v, hv, ht⟩ := Option.map_eq_some_iff.mp h
    obtain ⟨c1, c2⟩ := cells_val (K := K) hv d1 d2
    have hT : 1 ≤ testsOf R b := le_trans hR.pos (Nat.le_add_left _ _)
    have test : ∀ c ∈ v, ∀ r < testsOf R b, valAt I R.n ρ c r = 0 := by
      intro c hcv r hr
      rw [testCells, List.all_eq_true] at ht
      have h3 := ht c hcv
      simp only [Bool.or_eq_true, decide_eq_true_eq, List.all_eq_true, List.mem_range] at h3
      rcases h3 with h3 | h3
      · rw [h3, valAt_zero]
      · have h4 := h3 r hr
        have k1 : hasX (substitute (.sym R.n) (.num r) c) = false := hasX_substN (by simp [hasX]) (c1 c hcv).1
        have k2 : idxNe R.n (substitute (.sym R.n) (.num r) c) = true := idxNe_substN (by simp [idxNe]) (c1 c hcv).2
        have h5 := keeps_all hO.simp k1 k2 (le_refl (R.first + R.order))
        rw [h4, valAt_zero, subst_num_val (c1 c hcv).2] at h5
        exact h5.symm
    rcases c2 with c2 | ⟨c, hcv, rfl⟩
    · rw [valAt, ← c2]
      refine Finset.sum_eq_zero fun k _ => ?_
      rcases Nat.lt_or_ge k v.length with hk | hk
      · have hmem : v.getD k (.num 0) ∈ v := by
          rw [List.getD_eq_getElem?_getD, List.getElem?_eq_getElem hk]; simp
        have := expSum_zero _ _ (hc v hv _ hmem) (test _ hmem) m
        simp only [valAt] at this
        rw [this, mul_zero]
      · rw [List.getD_eq_getElem?_getD, List.getElem?_eq_none hk]
        simp [eval]
    · have := test _ hcv 0 hT
      simp [valAt, eval] at this

end

/-! ### Splitting a candidate -/

/-- A term with one initial condition: `x(first + i)`, or a product of `x(first + i)` and factors without the unknown. -/
inductive ICTerm (n : String) (first order : ℕ) : ℕ → Expr → Prop
  | x (i : ℕ) : i < order → ICTerm n first order i (xAt (first + i))
  | mul (l m : List Expr) (i : ℕ) : i < order → Clean n (l ++ m) →
      ICTerm n first order i (.mul (l ++ xAt (first + i) :: m))

/-- A candidate for the solution: one term with an initial condition, or a sum of such terms and of terms without the
unknown. -/
inductive Candidate (n : String) (first order : ℕ) : Expr → Prop
  | single {i : ℕ} {t : Expr} : ICTerm n first order i t → Candidate n first order t
  | sum (l : List Expr) : (∀ t ∈ l, (∃ i, ICTerm n first order i t) ∨ (hasX t = false ∧ idxNe n t = true)) →
      Candidate n first order (.add l)

theorem hasOnlyIC_noX {n : String} {e : Expr} (h : hasX e = false) : hasOnlyIC n e = true := by
  induction e using Expr.ind with
  | num q => simp [hasOnlyIC]
  | const q => simp [hasOnlyIC]
  | sym s => simp [hasOnlyIC]
  | add l ih => simp [hasX] at h; simp [hasOnlyIC]; exact fun a ha => ih a ha (h a ha)
  | mul l ih => simp [hasX] at h; simp [hasOnlyIC]; exact fun a ha => ih a ha (h a ha)
  | pow b e hb he => simp [hasX] at h; simp [hasOnlyIC]; exact ⟨hb h.1, he h.2⟩
  | fn f l ih =>
    have hf : f ≠ .x := by rintro rfl; simp [hasX] at h
    simp [hasX, hf] at h; simp [hasOnlyIC, hf]; exact fun a ha => ih a ha (h a ha)
  | binder k i a b c hi ha hb hc =>
    simp [hasX] at h; simp [hasOnlyIC, hi h.1.1.1, ha h.1.1.2, hb h.1.2, hc h.2]

theorem hasOnlyIC_xAt (n : String) (k : ℕ) : hasOnlyIC n (xAt k) = true := by simp [xAt, hasOnlyIC, isICArg]

theorem icTerm_hasIC {n : String} {first order i : ℕ} {t : Expr} (h : ICTerm n first order i t) : hasIC n t = true := by
  cases h with
  | x i hi =>
    have h2 : hasX (xAt (first + i)) = true := by simp [xAt, hasX]
    simp only [hasIC, hasOnlyIC_xAt, h2, Bool.and_self]
  | mul l m i hi hc =>
    have h1 : ∀ a ∈ l ++ m, hasOnlyIC n a = true := fun a ha => hasOnlyIC_noX (hc a ha).1
    simp only [hasIC, hasX, hasOnlyIC]
    simp only [List.map_append, List.map_cons, List.any_append, List.any_cons, List.all_append, List.all_cons, id,
      hasOnlyIC_xAt]
    have h2 : hasX (xAt (first + i)) = true := by simp [xAt, hasX]
    simp only [h2]
    simp
    exact ⟨fun a ha => h1 a (by simp [ha]), fun a ha => h1 a (by simp [ha])⟩

/-- `fn` or `mul`. -/
def isTerm : Expr → Bool
  | .fn _ _ => true
  | .mul _ => true
  | _ => false

theorem icTerm_isTerm {n : String} {first order i : ℕ} {t : Expr} (h : ICTerm n first order i t) : isTerm t = true := by
  cases h <;> rfl

/-- The sum of the terms in the list. -/
def joined : List Expr → Expr
  | [] => .num 0
  | [a] => a
  | l => .add l

theorem joined_snoc {L : List Expr} {t : Expr} (hL : ∀ a ∈ L, isTerm a = true) (ht : isTerm t = true) :
    addE (joined L) t = joined (L ++ [t]) := by
  match L with
  | [] => cases t <;> simp_all [joined, addE, isTerm]
  | [a] =>
    have := hL a (by simp)
    cases t <;> cases a <;> simp_all [joined, addE, isTerm]
  | a :: b :: L => cases t <;> simp_all [joined, addE, isTerm]

theorem split_sum {n : String} {first order : ℕ} (l : List Expr)
    (hl : ∀ t ∈ l, (∃ i, ICTerm n first order i t) ∨ (hasX t = false ∧ idxNe n t = true)) :
    ∃ (L : List Expr) (w : Expr), splitSolution n true (.add l) = (joined L, w) ∧
      (∀ t ∈ L, ∃ i, ICTerm n first order i t) ∧ (hasX w = false ∧ idxNe n w = true) ∧
      ∀ (J : Interp K) (ρ : String → K), eval J ρ (.add l) = (L.map fun a => eval J ρ a).sum + eval J ρ w := by
  simp only [splitSolution, if_true]
  induction l with
  | nil => exact ⟨[], .num 0, rfl, by simp, by simp [hasX, idxNe], fun J ρ => by simp [eval]⟩
  | cons t l ih =>
    obtain ⟨L, w, h1, h2, h3, h4⟩ := ih fun a ha => hl a (by simp [ha])
    rw [List.foldr_cons, h1]
    rcases hl t (by simp) with ⟨i, hi⟩ | ht
    · refine ⟨L ++ [t], w, ?_, ?_, h3, fun J ρ => ?_⟩
      · rw [if_pos (icTerm_hasIC hi)]
        rw [joined_snoc (fun a ha => by obtain ⟨j, hj⟩ := h2 a ha; exact icTerm_isTerm hj) (icTerm_isTerm hi)]
      · intro a ha
        rcases List.mem_append.mp ha with h | h
        · exact h2 a h
        · rw [List.mem_singleton.mp h]; exact ⟨i, hi⟩
      · have := h4 J ρ
        simp only [eval, List.map_cons, List.sum_cons, List.map_append, List.sum_append, List.map_nil, List.sum_nil] at this ⊢
        rw [this]; ring
    · refine ⟨L, addE w t, ?_, h2, ⟨hasX_addE h3.1 ht.1, idxNe_addE h3.2 ht.2⟩, fun J ρ => ?_⟩
      · rw [if_neg (by simp [hasIC, ht.1])]
      · have := h4 J ρ
        simp only [eval, List.map_cons, List.sum_cons, eval_addE] at this ⊢
        rw [this]; ring

/-! ### The vector of coefficients -/

theorem xArg_noX {e : Expr} (h : hasX e = false) : xArg e = none := by
  cases e with
  | fn f l => cases f <;> simp_all [xArg, hasX]
  | _ => rfl

theorem scan_clean {n : String} (m : List Expr) (hm : Clean n m) (p : Expr × Expr) (hp : hasX p.2 = false ∧ idxNe n p.2 = true) :
    ∃ c, m.foldr scanStep (some p) = some (p.1, c) ∧ (hasX c = false ∧ idxNe n c = true) ∧
      ∀ (J : Interp K) (ρ : String → K), eval J ρ c = eval J ρ p.2 * (m.map fun a => eval J ρ a).prod := by
  induction m with
  | nil => exact ⟨p.2, rfl, hp, fun J ρ => by simp⟩
  | cons f m ih =>
    obtain ⟨c, h1, h2, h3⟩ := ih fun a ha => hm a (by simp [ha])
    have hf := hm f (by simp)
    refine ⟨mulE c f, ?_, ⟨hasX_mulE h2.1 hf.1, idxNe_mulE h2.2 hf.2⟩, fun J ρ => ?_⟩
    · rw [List.foldr_cons, h1]
      simp [scanStep, xArg_noX hf.1]
    · rw [eval_mulE, h3]; simp; ring

theorem icTerm_parts {n : String} {first order i : ℕ} {t : Expr} (h : ICTerm n first order i t) :
    i < order ∧ ∃ c, addendParts t = some (.num ((first + i : ℕ) : ℚ), c) ∧ (hasX c = false ∧ idxNe n c = true) ∧
      ∀ (J : Interp K) (ρ : String → K), eval J ρ t = eval J ρ (xAt (first + i)) * eval J ρ c := by
  cases h with
  | x i hi => exact ⟨hi, .num 1, by simp [addendParts, xAt, xArg], by simp [hasX, idxNe], fun J ρ => by simp [eval]⟩
  | mul l m i hi hc =>
    refine ⟨hi, ?_⟩
    obtain ⟨c1, h1, h2, h3⟩ := scan_clean (K := K) (n := n) m (fun a ha => hc a (by simp [ha])) (.num 0, .num 1)
      (by simp [hasX, idxNe])
    obtain ⟨c2, g1, g2, g3⟩ := scan_clean (K := K) (n := n) l (fun a ha => hc a (by simp [ha]))
      (.num ((first + i : ℕ) : ℚ), c1) h2
    refine ⟨c2, ?_, g2, fun J ρ => ?_⟩
    · simp only [addendParts, scanMul]
      rw [List.foldr_append, List.foldr_cons, h1, ← g1]
      simp [scanStep, xArg, xAt]
    · rw [g3, h3]; simp [eval]; ring

theorem slot_num {gcd first order i : ℕ} (hi : i < order) :
    slot gcd first order (.num ((first + i : ℕ) : ℚ)) = some i := by
  have h1 : natOf (.num ((first + i : ℕ) : ℚ)) = some (first + i) := by
    simp only [natOf]
    rw [if_pos ⟨Rat.den_natCast _, by positivity⟩, Rat.num_natCast, Int.toNat_natCast]
  simp only [slot, h1, Option.bind_some, position]
  rw [if_pos ⟨by omega, by omega⟩]
  simp

theorem fill_fold {n : String} {gcd first order : ℕ} (L : List Expr) (hL : ∀ t ∈ L, ∃ i, ICTerm n first order i t) :
    ∃ v, L.foldr (fillStep gcd first order) (some (List.replicate order (.num 0))) = some v ∧ v.length = order ∧ Clean n v ∧
      ∀ (J : Interp K) (ρ : String → K), (L.map fun a => eval J ρ a).sum
        = wsum (fun i => eval J ρ (xAt (first + i))) (eval J ρ) v := by
  induction L with
  | nil =>
    exact ⟨_, rfl, by simp, clean_replicate _ _, fun J ρ => by rw [wsum_replicate (by simp [eval])]; simp⟩
  | cons t L ih =>
    obtain ⟨v, h1, h2, h3, h4⟩ := ih fun a ha => hL a (by simp [ha])
    obtain ⟨i, hi⟩ := hL t (by simp)
    obtain ⟨g0, c, g1, g2, g3⟩ := icTerm_parts (K := K) hi
    refine ⟨addAt v i c, ?_, by rw [length_addAt, h2], clean_addAt h3 g2.1 g2.2, fun J ρ => ?_⟩
    · rw [List.foldr_cons, h1]
      simp only [fillStep, g1, Option.bind_some, slot_num g0, Option.map_some]
    · rw [wsum_addAt (fun a b => eval_addE J ρ a b) (by omega), ← h4]
      simp [g3 J ρ]; ring

theorem getD_set_zero {order : ℕ} (h : 0 < order) (c : Expr) (k : ℕ) :
    ((List.replicate order (Expr.num 0)).set 0 c).getD k (.num 0) = if k = 0 then c else .num 0 := by
  by_cases hk : k = 0
  · subst hk; simp [List.getD_eq_getElem?_getD, h]
  · rw [List.getD_eq_getElem?_getD, List.getElem?_set]
    simp [Ne.symm hk, hk, List.getElem?_replicate]
    split <;> rfl

theorem wsum_set_zero {order : ℕ} (h : 0 < order) (c : Expr) (w : ℕ → K) (ev : Expr → K) (h0 : ev (.num 0) = 0) :
    wsum w ev ((List.replicate order (Expr.num 0)).set 0 c) = w 0 * ev c := by
  unfold wsum
  rw [List.length_set, List.length_replicate, Finset.sum_eq_single 0]
  · rw [getD_set_zero h, if_pos rfl]
  · intro k _ hk
    rw [getD_set_zero h, if_neg hk, h0, mul_zero]
  · intro h1; simp at h1; omega

theorem mul_coeff {n : String} (l : List Expr) (z : Expr) (hz : hasX z = false ∧ idxNe n z = true) (hl : Clean n l) :
    (hasX (l.foldr (fun f acc => if (xArg f).isSome then acc else mulE acc f) z) = false ∧
      idxNe n (l.foldr (fun f acc => if (xArg f).isSome then acc else mulE acc f) z) = true) ∧
    ∀ (J : Interp K) (ρ : String → K), eval J ρ (l.foldr (fun f acc => if (xArg f).isSome then acc else mulE acc f) z)
      = eval J ρ z * (l.map fun a => eval J ρ a).prod := by
  induction l with
  | nil => exact ⟨hz, fun J ρ => by simp⟩
  | cons f l ih =>
    obtain ⟨h1, h2⟩ := ih fun a ha => hl a (by simp [ha])
    have hf := hl f (by simp)
    simp only [List.foldr_cons, xArg_noX hf.1, Option.isSome_none, Bool.false_eq_true, if_false]
    refine ⟨⟨hasX_mulE h1.1 hf.1, idxNe_mulE h1.2 hf.2⟩, fun J ρ => ?_⟩
    rw [eval_mulE, h2]; simp; ring

/-- A single term: its coefficient goes into the first place whatever the index is. -/
theorem fill_single {n : String} {gcd first order i : ℕ} {t : Expr} (h : ICTerm n first order i t) :
    ∃ c, fillVector gcd first order t = some ((List.replicate order (.num 0)).set 0 c) ∧
      (hasX c = false ∧ idxNe n c = true) ∧
      ∀ (J : Interp K) (ρ : String → K), eval J ρ t = eval J ρ (xAt (first + i)) * eval J ρ c := by
  cases h with
  | x i hi =>
    exact ⟨.num 1, by simp [fillVector, xAt, xArg, show 0 < order by omega], by simp [hasX, idxNe], fun J ρ => by simp [eval]⟩
  | mul l m i hi hc =>
    obtain ⟨h1, h2⟩ := mul_coeff (K := K) (n := n) m (.num 1) (by simp [hasX, idxNe]) (fun a ha => hc a (by simp [ha]))
    obtain ⟨g1, g2⟩ := mul_coeff (K := K) (n := n) l _ h1 (fun a ha => hc a (by simp [ha]))
    refine ⟨_, ?_, g1, fun J ρ => ?_⟩
    · simp only [fillVector]
      rw [if_pos (by omega), List.foldr_append, List.foldr_cons]
      simp [xArg, xAt]
    · rw [g2, h2]; simp [eval]; ring

theorem fill_joined {n : String} {gcd first order : ℕ} (L : List Expr) (hL : ∀ t ∈ L, ∃ i, ICTerm n first order i t)
    {v : List Expr} (h : fillVector gcd first order (joined L) = some v) :
    v.length = order ∧ Clean n v ∧
      ((∀ (J : Interp K) (ρ : String → K), (L.map fun a => eval J ρ a).sum
        = wsum (fun i => eval J ρ (xAt (first + i))) (eval J ρ) v) ∨ (2 ≤ order ∧ v.getD 1 (.num 0) = .num 0)) := by
  match L with
  | [] => simp [joined, fillVector, xArg] at h
  | [t] =>
    obtain ⟨i, hi⟩ := hL t (by simp)
    obtain ⟨c, h1, h2, h3⟩ := fill_single (K := K) (gcd := gcd) hi
    rw [joined, h1] at h
    obtain rfl := (Option.some.inj h).symm
    have hio := (icTerm_parts (K := K) hi).1
    refine ⟨by simp, ?_, ?_⟩
    · intro c' hc'
      rcases List.mem_or_eq_of_mem_set hc' with g | g
      · exact clean_replicate n _ c' g
      · rw [g]; exact h2
    · by_cases h0 : i = 0
      · left
        intro J ρ
        rw [wsum_set_zero (by omega) _ _ _ (by simp [eval])]
        simp [h3 J ρ, h0]
      · right
        exact ⟨by omega, by rw [getD_set_zero (by omega)]; simp⟩
  | a :: b :: L =>
    obtain ⟨v', h1, h2, h3, h4⟩ := fill_fold (K := K) (gcd := gcd) (a :: b :: L) hL
    have e1 : fillVector gcd first order (joined (a :: b :: L)) = some v' := h1
    rw [e1] at h
    obtain rfl := Option.some.inj h
    exact ⟨h2, h3, .inl h4⟩

/-! ### The steps -/

section
variable {I} {R : Rec} {O : Oracle} {ρ : String → K} {a : ℕ → ℕ → K}

theorem at_val (hO : OracleOk I R O ρ) {e : Expr} (hx : hasX e = false) (hi : idxNe R.n e = true) (k : ℕ) (X : K → K) :
    eval (withX I X) (update ρ R.n ((R.first + R.order : ℕ) : K)) (at' O R.n e k) = valAt I R.n ρ e k := by
  have s1 : hasX (substitute (.sym R.n) (.num k) e) = false := hasX_substN (by simp [hasX]) hx
  have s2 : idxNe R.n (substitute (.sym R.n) (.num k) e) = true := idxNe_substN (by simp [idxNe]) hi
  have t1 := hO.simp.noX _ s1 s2
  have t2 := hO.simp.idx _ s1 s2
  have u1 := hO.rw.noX _ t1 t2
  have u2 := hO.rw.idx _ t1 t2
  rw [at', eval_valAt I (hO.simp.noX _ u1 u2), keeps_all hO.simp u1 u2 le_rfl, keeps_all hO.rw t1 t2 le_rfl,
    keeps_all hO.simp s1 s2 le_rfl, subst_num_val hi]

theorem at_num (hO : OracleOk I R O ρ) {e : Expr} (hx : hasX e = false) (hi : idxNe R.n e = true) {k : ℕ} {q : ℚ}
    (h : at' O R.n e k = .num q) : valAt I R.n ρ e k = q := by
  rw [← at_val hO hx hi k (fun _ => 0), h]; simp [eval]

theorem validate_spec (hO : OracleOk I R O ρ) (hR : RecOk I R ρ a) {v : List Expr} {withIC w : Expr}
    (hv : v.length = R.order) (hc : Clean R.n v) (hw : hasX w = false ∧ idxNe R.n w = true)
    (h : validateSymbolic R O v withIC w = true) :
    (∀ i < R.order, ∀ j < R.order,
      valAt I R.n ρ (v.getD j (.num 0)) ((R.first + i : ℕ) : K) = if i = j then 1 else 0) ∧
    ∀ i < R.order, valAt I R.n ρ w ((R.first + i : ℕ) : K) = 0 := by
  rw [validateSymbolic, List.all_eq_true] at h
  constructor
  · intro i hi j hj
    have h1 := h i (List.mem_range.mpr hi)
    rw [hR.linear, if_pos rfl, Bool.and_eq_true, List.all_eq_true] at h1
    have h2 := h1.1 j (List.mem_range.mpr (by omega))
    rw [at_num hO (clean_getD hc j).1 (clean_getD hc j).2 (by simpa using h2)]
    split_ifs <;> simp
  · intro i hi
    have h1 := h i (List.mem_range.mpr hi)
    rw [Bool.and_eq_true] at h1
    rw [at_num hO hw.1 hw.2 (by simpa using h1.2)]
    simp

theorem fold_new {f : ℕ → Option Bool} : ∀ (idx : List ℕ) (acc : Option Bool),
    idx.foldl (fun acc i => acc.bind fun b => if b then f i else some false) acc = some true →
    acc = some true ∧ ∀ i ∈ idx, f i = some true
  | [], acc, h => ⟨h, by simp⟩
  | i :: idx, acc, h => by
    obtain ⟨h1, h2⟩ := fold_new idx _ h
    cases acc with
    | none => simp at h1
    | some b =>
      cases b with
      | false => simp at h1
      | true =>
        have h1 : f i = some true := by simpa using h1
        refine ⟨rfl, fun j hj => ?_⟩
        rcases List.mem_cons.mp hj with rfl | hj
        · exact h1
        · exact h2 j hj

theorem step3_spec (hO : OracleOk I R O ρ) (hR : RecOk I R ρ a) {v : List Expr} {withIC : Expr} (hc : Clean R.n v)
    (hcl : R.constCoeff = true → ∀ j < R.order, InClass I R O ρ (v.getD j (.num 0)) false) (h : step3 R O v withIC = some true) :
    ∀ j < R.order, HomSat I R ρ a (v.getD j (.num 0)) := by
  have trad : (List.range (R.order / R.gcd)).all (fun i => traditional3 R O (v.getD i (.num 0))) = true →
      ∀ j < R.order, HomSat I R ρ a (v.getD j (.num 0)) := by
    intro h j hj
    rw [List.all_eq_true] at h
    exact trad_hom hO hR (clean_getD hc j).1 (clean_getD hc j).2 (h j (by rw [hR.gcd, Nat.div_one]; simpa using hj))
  unfold step3 at h
  simp only [hR.linear, if_true] at h
  split_ifs at h with h1
  · obtain ⟨b, h2, h3⟩ := Option.map_eq_some_iff.mp h
    rcases Bool.or_eq_true _ _ ▸ h3 with h4 | h4
    · subst h4
      intro j hj m hm
      have h5 := (fold_new _ _ h2).2 j (by rw [hR.gcd, Nat.div_one]; simpa using hj)
      have h6 := newMethod_zero hO hR (clean_getD hc j).1 (clean_getD hc j).2 (hcl h1.1 j hj) h5 m hm
      rw [h6]
      simpa using (homPart hR).2 _ m hm
    · exact trad h4
  · exact trad (by simpa using h)

theorem step4_spec (hO : OracleOk I R O ρ) (hR : RecOk I R ρ a) {v : List Expr} {withIC w : Expr} {p : Bool}
    (hw : hasX w = false ∧ idxNe R.n w = true) (hcl : R.constCoeff = true → InClass I R O ρ w true)
    (h : steps34 R O v withIC w p = some (yes p)) : step3 R O v withIC = some true ∧ InhomSat I R ρ a w := by
  unfold steps34 at h
  cases hs : step3 R O v withIC with
  | none => simp [hs] at h
  | some ok =>
    rw [hs, Option.bind_some] at h
    have bad : ∀ p : Bool, some Verdict.inconclusive ≠ some (yes p) := by intro p; cases p <;> simp [yes]
    cases ok with
    | false => exact absurd h (by simpa using bad p)
    | true =>
      refine ⟨rfl, ?_⟩
      simp only [Bool.not_true, Bool.false_eq_true, if_false] at h
      by_cases h1 : R.ics = [] ∧ R.inhom = .num 0
      · rw [if_pos h1] at h
        by_cases h2 : w = .num 0
        · subst h2
          intro m hm
          rw [h1.2]
          simp [valAt_zero]
        · rw [if_neg h2] at h; exact absurd h (bad p)
      · rw [if_neg h1] at h
        split_ifs at h with h2
        · cases hn : newMethod R O w true with
          | none => simp [hn] at h
          | some b =>
            rw [hn, Option.bind_some] at h
            cases b with
            | true =>
              intro m hm
              rw [newMethod_zero hO hR hw.1 hw.2 (hcl h2) hn m hm]
              simp only [if_true]
              rw [hR.lin _ m hm, eval_valAt I hR.inX]
            | false => exact step4_inhom hO hR hw.1 hw.2 (by simpa using h)
        · exact step4_inhom hO hR hw.1 hw.2 h

/-- The pieces into which a candidate is split belong to the class of the new method. -/
def CandidateInClass (I : Interp K) (R : Rec) (O : Oracle) (ρ : String → K) (sol : Expr) : Prop :=
  (∀ v, fillVector R.gcd R.first R.order (splitSolution R.n (R.ics = []) sol).1 = some v →
    ∀ j < R.order, InClass I R O ρ (v.getD j (.num 0)) false) ∧
  InClass I R O ρ (splitSolution R.n (R.ics = []) sol).2 true

theorem split_spec {first order : ℕ} {n : String} {sol : Expr} (hs : Candidate n first order sol) :
    ∃ (L : List Expr) (w : Expr), splitSolution n true sol = (joined L, w) ∧
      (∀ t ∈ L, ∃ i, ICTerm n first order i t) ∧ (hasX w = false ∧ idxNe n w = true) ∧
      ∀ (J : Interp K) (ρ : String → K), eval J ρ sol = (L.map fun a => eval J ρ a).sum + eval J ρ w := by
  cases hs with
  | sum l hl => exact split_sum l hl
  | @single i t ht =>
    refine ⟨[sol], .num 0, ?_, ?_, by simp [hasX, idxNe], fun J ρ => by simp [eval]⟩
    · have h1 : hasOnlyIC n sol = true := (Bool.and_eq_true _ _ ▸ icTerm_hasIC ht).2
      cases ht <;> simp_all [splitSolution, joined, xAt]
    · intro t h; rw [List.mem_singleton.mp h]; exact ⟨i, ht⟩

/-- **C40**, symbolic initial conditions.  If the simplifications are correct, the recurrence is linear of finite order and
was not reduced, the candidate is a sum of terms with at most one initial condition `x(first), …, x(first + order - 1)` and, when
the coefficients are constant, belongs to the class of the new method, then a positive verdict means: for every unknown `X` the
candidate takes the initial values of `X` and satisfies the recurrence from there on.
Missing from the full property: the other candidates and the reduced recurrences, refuted below. -/
theorem C40_symbolic_partial (hO : OracleOk I R O ρ) (hR : RecOk I R ρ a) (hic : R.ics = []) {sol : Expr}
    (hs : Candidate R.n R.first R.order sol) (hcl : R.constCoeff = true → CandidateInClass I R O ρ sol) {p : Bool}
    (h : verifyFiniteOrder R O sol p = some (yes p)) (X : K → K) :
    (∀ i < R.order, eval (withX I X) (update ρ R.n ((R.first + i : ℕ) : K)) sol = X ((R.first + i : ℕ) : K)) ∧
    ∀ m : ℕ, R.first + R.order ≤ m → eval (withX I X) (update ρ R.n m) sol
      = eval (withX I fun v => eval (withX I X) (update ρ R.n v) sol) (update ρ R.n m) R.rhs := by
  have hpos := hR.pos
  have h1 : verifySolution R O sol p = some (yes p) := by
    unfold verifyFiniteOrder at h
    rw [if_neg (by omega), hR.red] at h
    split_ifs at h <;> exact h
  obtain ⟨L, w, hsp, hL, hw, hev⟩ := split_spec (K := K) hs
  unfold verifySolution at h1
  unfold CandidateInClass at hcl
  rw [show decide (R.ics = []) = true by simp [hic], hsp] at h1 hcl
  simp only [hR.linear, hic, and_self, if_true] at h1
  cases hf : fillVector R.gcd R.first R.order (joined L) with
  | none => simp [hf] at h1
  | some v =>
    rw [hf, Option.bind_some] at h1
    split_ifs at h1 with hval
    swap
    · cases p <;> simp [yes] at h1
    obtain ⟨g1, g2, g3⟩ := fill_joined (K := K) L hL hf
    obtain ⟨v1, v2⟩ := validate_spec hO hR g1 g2 hw hval
    obtain ⟨hs3, hin⟩ := step4_spec hO hR hw (fun hc => (hcl hc).2) h1
    have hhom := step3_spec hO hR g2 (fun hc => (hcl hc).1 v hf) hs3
    have hsum : ∀ (J : Interp K) (ρ : String → K), (L.map fun a => eval J ρ a).sum
        = wsum (fun i => eval J ρ (xAt (R.first + i))) (eval J ρ) v := by
      rcases g3 with g3 | ⟨g4, g5⟩
      · exact g3
      · have := v1 1 (by omega) 1 (by omega)
        rw [g5, valAt_zero] at this
        simp at this
    have hS : ∀ u : K, eval (withX I X) (update ρ R.n u) sol
        = (∑ i ∈ Finset.range R.order, X ((R.first + i : ℕ) : K) * valAt I R.n ρ (v.getD i (.num 0)) u)
          + valAt I R.n ρ w u := by
      intro u
      rw [hev, hsum, wsum, g1, eval_valAt I hw.1]
      congr 1
      refine Finset.sum_congr rfl fun i _ => ?_
      rw [eval_valAt I (clean_getD g2 i).1]
      congr 1
      rw [xAt, eval_x]; simp [eval]
    constructor
    · intro i hi
      rw [hS, v2 i hi, add_zero, Finset.sum_eq_single i]
      · rw [v1 i hi i hi, if_pos rfl, mul_one]
      · intro j hj hne
        rw [v1 i hi j (by simpa using hj), if_neg (Ne.symm hne), mul_zero]
      · intro h; simp at h; omega
    · intro m hm
      rw [hR.lin _ m hm, eval_valAt I hR.inX]
      simp only [hS]
      rw [hin m hm]
      have e1 : ∀ d : ℕ, a d m * ((∑ i ∈ Finset.range R.order,
          X ((R.first + i : ℕ) : K) * valAt I R.n ρ (v.getD i (.num 0)) ((m : K) - d)) + valAt I R.n ρ w ((m : K) - d))
          = (∑ i ∈ Finset.range R.order,
            X ((R.first + i : ℕ) : K) * (a d m * valAt I R.n ρ (v.getD i (.num 0)) ((m : K) - d)))
            + a d m * valAt I R.n ρ w ((m : K) - d) := by
        intro d
        rw [mul_add, Finset.mul_sum]
        congr 1
        exact Finset.sum_congr rfl fun i _ => by ring
      simp only [e1]
      rw [Finset.sum_add_distrib, Finset.sum_comm, ← add_assoc]
      congr 2
      refine Finset.sum_congr rfl fun i hi => ?_
      rw [hhom i (by simpa using hi) m hm, Finset.mul_sum]

/-- Solutions of a linear recurrence are determined by their initial values. -/
theorem determined (hR : RecOk I R ρ a) {start : ℕ} (hst : R.first ≤ start) {f g : K → K}
    (hf : ∀ m : ℕ, R.first + R.order ≤ m → f m = eval (withX I f) (update ρ R.n m) R.rhs)
    (hg : ∀ m : ℕ, R.first + R.order ≤ m → g m = eval (withX I g) (update ρ R.n m) R.rhs)
    (h0 : ∀ i < R.order, f ((start + i : ℕ) : K) = g ((start + i : ℕ) : K)) (m : ℕ) (hm : start ≤ m) : f m = g m := by
  induction m using Nat.strong_induction_on with
  | _ m ih =>
    by_cases h1 : m < start + R.order
    · obtain ⟨i, rfl⟩ : ∃ i, m = start + i := ⟨m - start, by omega⟩
      exact h0 i (by omega)
    · rw [hf m (by omega), hg m (by omega), hR.lin _ m (by omega), hR.lin _ m (by omega), eval_noX I f g _ hR.inX]
      congr 1
      refine Finset.sum_congr rfl fun d hd => ?_
      have hd := Finset.mem_Icc.mp hd
      have e1 : (m : K) - d = ((m - d : ℕ) : K) := by rw [Nat.cast_sub (by omega)]
      rw [e1, ih (m - d) (by omega) (by omega)]

/-- **C40**, symbolic initial conditions: under the hypotheses of `C40_symbolic_partial` the candidate has the value of every
solution of the recurrence, at every index from the first valid one on. -/
theorem C40_solution_partial (hO : OracleOk I R O ρ) (hR : RecOk I R ρ a) (hic : R.ics = []) {sol : Expr}
    (hs : Candidate R.n R.first R.order sol) (hcl : R.constCoeff = true → CandidateInClass I R O ρ sol) {p : Bool}
    (h : verifyFiniteOrder R O sol p = some (yes p)) : IsSolution I R.n R.rhs ρ sol R.first R.order := by
  intro X hX N hN
  obtain ⟨h1, h2⟩ := C40_symbolic_partial hO hR hic hs hcl h X
  exact determined hR le_rfl (f := fun v => eval (withX I X) (update ρ R.n v) sol) h2 hX h1 N hN

/-- The first index of the initial conditions that are compared with the solution: that of the last `order` conditions. -/
def firstIC (R : Rec) : ℕ := if R.first + R.order - 1 < maxIC R.ics then maxIC R.ics - R.order + 1 else R.first

/-- **C40**, evaluated solution.  With given initial conditions a positive verdict means that the candidate takes the values of
the last `order` of them and satisfies the recurrence at every index from the first valid one on. -/
theorem C40_evaluated_partial (hO : OracleOk I R O ρ) (hR : RecOk I R ρ a) (hic : R.ics ≠ []) {sol : Expr}
    (hs : hasX sol = false ∧ idxNe R.n sol = true) (hcl : R.constCoeff = true → InClass I R O ρ sol true) {p : Bool}
    (h : verifyFiniteOrder R O sol p = some (yes p)) :
    (∀ i < R.order, ∀ X : K → K, valAt I R.n ρ sol ((firstIC R + i : ℕ) : K)
      = eval (withX I X) (update ρ R.n ((R.first + R.order : ℕ) : K)) (getIC R.ics (firstIC R + i))) ∧
    ∀ m : ℕ, R.first + R.order ≤ m →
      valAt I R.n ρ sol m = eval (withX I (valAt I R.n ρ sol)) (update ρ R.n m) R.rhs := by
  have hpos := hR.pos
  have h1 : verifySolution R O sol p = some (yes p) := by
    unfold verifyFiniteOrder at h
    rw [if_neg (by omega), hR.red] at h
    split_ifs at h <;> exact h
  unfold verifySolution at h1
  have hsp : splitSolution R.n (decide (R.ics = [])) sol = (.num 0, sol) := by simp [splitSolution, hic]
  rw [hsp] at h1
  simp only [hic, and_false, if_false, Option.bind_some] at h1
  split_ifs at h1 with hval
  swap
  · cases p <;> simp [yes] at h1
  obtain ⟨-, hin⟩ := step4_spec hO hR hs hcl h1
  constructor
  · intro i hi X
    rw [validateValues, List.all_eq_true] at hval
    have h2 := hval i (List.mem_range.mpr hi)
    have h3 : at' O R.n sol (firstIC R + i) = getIC R.ics (firstIC R + i) := by
      exact of_decide_eq_true h2
    rw [← h3, at_val hO hs.1 hs.2]
  · intro m hm
    rw [hR.lin _ m hm, eval_valAt I hR.inX, hin m hm]

/-- **C40**, evaluated solution: under the hypotheses of `C40_evaluated_partial` the candidate has the value of every solution
of the recurrence that takes the given initial values. -/
theorem C40_evaluated_solution_partial (hO : OracleOk I R O ρ) (hR : RecOk I R ρ a) (hic : R.ics ≠ []) {sol : Expr}
    (hs : hasX sol = false ∧ idxNe R.n sol = true) (hcl : R.constCoeff = true → InClass I R O ρ sol true) {p : Bool}
    (h : verifyFiniteOrder R O sol p = some (yes p)) (X : K → K) (hX : SolvesAt I R.n R.rhs ρ X (R.first + R.order))
    (hX0 : ∀ i < R.order, ∀ v : K, eval (withX I X) (update ρ R.n v) (getIC R.ics (firstIC R + i))
      = X ((firstIC R + i : ℕ) : K)) (N : ℕ) (hN : firstIC R ≤ N) :
    eval (withX I X) (update ρ R.n N) sol = X N := by
  obtain ⟨h1, h2⟩ := C40_evaluated_partial hO hR hic hs hcl h
  have hst : R.first ≤ firstIC R := by unfold firstIC; split <;> omega
  rw [eval_valAt I hs.1]
  refine determined hR hst (f := valAt I R.n ρ sol) h2 hX (fun i hi => ?_) N hN
  rw [h1 i hi X, hX0 i hi]

end

end Purrs.Verify
