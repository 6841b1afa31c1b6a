import Verif.Model.Eliminate
import Verif.Props.Classify
import Verif.Props.WeightedAvg

/-!
# C35, C67: rewriting into standard form
-/

set_option linter.unusedSectionVars false

namespace Purrs.Eliminate

open Purrs Purrs.Classify Purrs.WeightedAvg Purrs.OrderRed
open Function (update update_of_ne update_self update_comm)

/-- `expand` and `collect` keep the value of every expression, and do not introduce sums over `n`. -/
structure RwOk (n : String) (rw' : Rewriter) : Prop where
  expand_eval : ∀ (K : Type) [Field K] [CharZero K] (J : Interp K) (ρ : String → K) (e : Expr),
    eval J ρ (rw'.expand e) = eval J ρ e
  collect_eval : ∀ (K : Type) [Field K] [CharZero K] (J : Interp K) (ρ : String → K) (e : Expr),
    eval J ρ (rw'.collect e) = eval J ρ e
  expand_idx : ∀ e, idxNe n e = true → idxNe n (rw'.expand e) = true
  collect_idx : ∀ e, idxNe n e = true → idxNe n (rw'.collect e) = true

theorem idxNe_addends {n : String} {e : Expr} (h : idxNe n e = true) : ∀ a ∈ addends e, idxNe n a = true := by
  cases e <;> simp_all [addends, idxNe]

theorem idxNe_factors {n : String} {e : Expr} (h : idxNe n e = true) : ∀ a ∈ factors e, idxNe n a = true := by
  cases e <;> simp_all [factors, idxNe]

theorem assignMax_forall {P : Expr → Prop} {n : String} {arg pc : Expr} {st : ℤ × Expr} (hp : P pc) (hs : P st.2) :
    P (assignMax n arg pc st).2 := by
  unfold assignMax
  split_ifs
  · exact hp
  · exact hs

theorem maxFactor_forall {P : Expr → Prop} (h1 : P (.num 1)) (hadd : ∀ a b, P a → P b → P (addE a b))
    (hmul : ∀ a b, P a → P b → P (mulE a b)) {n : String} {e : Expr} {st : ℤ × Expr}
    (hf : ∀ f ∈ factors e, isX f = false → P f) (hs : P st.2) : P (maxFactor n e st).2 := by
  unfold maxFactor
  split
  · rename_i l
    have key : ∀ l : List Expr, (∀ f ∈ l, isX f = false → P f) →
        P (l.foldr (maxStep n) (.num 1, .num 0, st)).1 ∧ P (l.foldr (maxStep n) (.num 1, .num 0, st)).2.2.2 := by
      intro l
      induction l with
      | nil => intro _; exact ⟨h1, hs⟩
      | cons f l ih =>
        intro hl
        obtain ⟨i1, i2⟩ := ih fun g hg => hl g (List.mem_cons_of_mem _ hg)
        rw [List.foldr_cons]
        generalize l.foldr (maxStep n) (.num 1, .num 0, st) = r at i1 i2
        have hpc : ∀ pcpa : Expr × Expr, P pcpa.1 →
            P (if pcpa.2 = .num 0 then r.2.2 else assignMax n pcpa.2 pcpa.1 r.2.2).2 := by
          intro q hq
          split_ifs
          · exact i2
          · exact assignMax_forall hq i2
        unfold maxStep
        dsimp only
        split
        · exact ⟨i1, hpc (_, _) i1⟩
        · rename_i hne
          have hX : isX f = false := by
            unfold isX
            split
            · exact absurd rfl (hne _)
            · rfl
          have := hmul _ _ i1 (hl f (List.mem_cons_self ..) hX)
          exact ⟨this, hpc (_, _) this⟩
    obtain ⟨k1, k2⟩ := key l hf
    dsimp only
    split_ifs
    · exact k2
    · exact hadd _ _ hs k2
  · exact assignMax_forall h1 hs
  · exact hs

theorem findMax_forall {P : Expr → Prop} (h0 : P (.num 0)) (h1 : P (.num 1)) (hadd : ∀ a b, P a → P b → P (addE a b))
    (hmul : ∀ a b, P a → P b → P (mulE a b)) {n : String} {e : Expr}
    (hf : ∀ a ∈ addends e, ∀ f ∈ factors a, isX f = false → P f) : P (findMax n e).2 := by
  unfold findMax
  revert hf
  generalize addends e = l
  induction l with
  | nil => intro _; exact h0
  | cons a l ih =>
    intro hf
    exact maxFactor_forall h1 hadd hmul (hf a (List.mem_cons_self ..))
      (ih fun b hb => hf b (List.mem_cons_of_mem _ hb))

theorem idxNe_findMax {n : String} {e : Expr} (h : idxNe n e = true) : idxNe n (findMax n e).2 = true :=
  findMax_forall (P := fun e => idxNe n e = true) (by simp [idxNe]) (by simp [idxNe]) (fun _ _ => idxNe_addE)
    (fun _ _ => idxNe_mulE) fun a ha f hf _ => idxNe_factors (idxNe_addends h a ha) f hf

section
variable {K : Type} [Field K] [CharZero K] (I : Interp K)

theorem eval_elimNegative {n : String} {rw' : Rewriter} (hrw : RwOk n rw') {rhs : Expr} (hid : idxNe n rhs = true)
    (X : K → K) (ρ : String → K) (v : K) :
    eval (withX I X) (update ρ n v) (elimNegative n rw' rhs)
      = (eval (withX I X) (update ρ n (v - (findMax n rhs).1)) rhs - X (v - (findMax n rhs).1))
          / -eval (withX I X) (update ρ n (v - (findMax n rhs).1)) (findMax n rhs).2 + X v := by
  unfold elimNegative
  dsimp only
  rw [hrw.expand_eval, eval_addE, hrw.collect_eval, hrw.expand_eval, eval_divE, eval_subE, eval_negE,
    eval_subst_shift _ hid, eval_subst_shift _ (idxNe_findMax hid), eval_x, eval_shiftN, xn, eval_x]
  simp [eval, sub_eq_add_neg]

/-- **C35**: the rewriting of a recurrence with terms `x(n + m)` is an equivalence.  Let `m` be the shift chosen by the
code and `c` the coefficient by which it divides.  If `c` does not vanish at the indices `n ≥ s`, a sequence satisfies
the recurrence from `s` on if and only if it satisfies the new recurrence from `s + m` on. -/
theorem C35_negative {n : String} {rw' : Rewriter} (hrw : RwOk n rw') {rhs : Expr} (hid : idxNe n rhs = true)
    (X : K → K) (ρ : String → K) (s s' : ℕ) (hs : (s' : ℤ) = s + (findMax n rhs).1)
    (hc : ∀ N : ℕ, s ≤ N → eval (withX I X) (update ρ n N) (findMax n rhs).2 ≠ 0) :
    SolvesAt I n rhs ρ X s ↔ SolvesAt I n (elimNegative n rw' rhs) ρ X s' := by
  have hiff : ∀ N M : ℕ, s ≤ N → (M : ℤ) = N + (findMax n rhs).1 →
      (X N = eval (withX I X) (update ρ n N) rhs ↔
        X M = eval (withX I X) (update ρ n M) (elimNegative n rw' rhs)) := by
    intro N M hN hM
    have h1 : ((M : K) - ((findMax n rhs).1 : ℤ)) = (N : K) := by
      have : ((M : ℤ) : K) = ((N + (findMax n rhs).1 : ℤ) : K) := by rw [hM]
      push_cast at this
      rw [this]; ring
    rw [eval_elimNegative I hrw hid, h1]
    have h2 := hc N hN
    constructor
    · intro h; rw [← h]; simp
    · intro h
      have h3 : (eval (withX I X) (update ρ n N) rhs - X N)
          / -eval (withX I X) (update ρ n N) (findMax n rhs).2 = 0 := by
        have := h; linear_combination -this
      rw [div_eq_zero_iff] at h3
      rcases h3 with h3 | h3
      · exact (sub_eq_zero.mp h3).symm
      · exact absurd (neg_eq_zero.mp h3) h2
  constructor
  · intro h M hM
    have h1 : ((M - (findMax n rhs).1).toNat : ℤ) = M - (findMax n rhs).1 := Int.toNat_of_nonneg (by omega)
    exact (hiff (M - (findMax n rhs).1).toNat M (by omega) (by omega)).mp (h _ (by omega))
  · intro h N hN
    have h1 : ((N + (findMax n rhs).1).toNat : ℤ) = N + (findMax n rhs).1 := Int.toNat_of_nonneg (by omega)
    exact (hiff N (N + (findMax n rhs).1).toNat hN (by omega)).mpr (h _ (by omega))

end

/-! ## The shift is the largest one -/

/-- The shifts `m` of the terms `x(n + m)` of an addend (zero if the argument is not of this form). -/
def shifts (n : String) (a : Expr) : List ℤ := (factors a).filterMap fun f =>
  match f with
  | .fn .x [arg] => some (decOf n arg)
  | _ => none

theorem assignMax_fst (n : String) (arg pc : Expr) (st : ℤ × Expr) : (assignMax n arg pc st).1 = max st.1 (decOf n arg) := by
  unfold assignMax
  split_ifs with h
  · exact (max_eq_right h).symm
  · exact (max_eq_left (by omega)).symm

theorem foldr_max_max (l : List ℤ) (a b : ℤ) : l.foldr max (max a b) = max (l.foldr max a) b := by
  induction l with
  | nil => rfl
  | cons c l ih => simp only [List.foldr_cons, ih, max_assoc]

theorem le_foldr_max (l : List ℤ) (a : ℤ) : a ≤ l.foldr max a := by
  induction l with
  | nil => exact le_refl _
  | cons c l ih => exact ih.trans (le_max_right _ _)

theorem maxFactor_fst {n : String} {a : Expr} (h0 : Expr.fn .x [.num 0] ∉ factors a) (st : ℤ × Expr) :
    (maxFactor n a st).1 = (shifts n a).foldr max st.1 := by
  unfold maxFactor
  split
  · rename_i l
    have key : ∀ l : List Expr, Expr.fn .x [.num 0] ∉ l →
        (l.foldr (maxStep n) (.num 1, .num 0, st)).2.2.1 = (shifts n (.mul l)).foldr max st.1 ∧
        ((l.foldr (maxStep n) (.num 1, .num 0, st)).2.1 ≠ .num 0 →
          decOf n (l.foldr (maxStep n) (.num 1, .num 0, st)).2.1 ≤ (l.foldr (maxStep n) (.num 1, .num 0, st)).2.2.1) := by
      intro l
      induction l with
      | nil => intro _; exact ⟨rfl, fun h => absurd rfl h⟩
      | cons f l ih =>
        intro hl
        simp only [List.mem_cons, not_or] at hl
        obtain ⟨i1, i2⟩ := ih hl.2
        rw [List.foldr_cons]
        generalize l.foldr (maxStep n) (.num 1, .num 0, st) = r at i1 i2
        unfold maxStep
        dsimp only
        split
        · rename_i arg
          have ha : arg ≠ .num 0 := by rintro rfl; exact hl.1 rfl
          rw [if_neg ha, assignMax_fst]
          refine ⟨?_, fun _ => le_max_right _ _⟩
          rw [i1, max_comm]; rfl
        · rename_i hne
          have hsh : shifts n (.mul (f :: l)) = shifts n (.mul l) := by
            simp only [shifts, factors]
            rw [List.filterMap_cons]
            split
            · rfl
            · rename_i b hb
              split at hb
              · exact absurd rfl (hne _)
              · simp at hb
          rw [hsh]
          by_cases h : r.2.1 = .num 0
          · rw [if_pos h]; exact ⟨i1, fun h' => absurd h h'⟩
          · rw [if_neg h, assignMax_fst, max_eq_left (i2 h)]; exact ⟨i1, i2⟩
    exact (key l h0).1
  · rw [assignMax_fst, max_comm]; rfl
  · rename_i h1 h2
    have hf : factors a = [a] := by
      cases a <;> simp [factors]
      exact absurd rfl (h1 _)
    have hsh : shifts n a = [] := by
      unfold shifts
      rw [hf]
      simp only [List.filterMap_cons, List.filterMap_nil]
    rw [hsh]; rfl

/-- **C35**, the shift: it is the largest `m` of the terms `x(n + m)` of the right-hand side (`INT_MIN` if there are
none). -/
theorem C35_shift {n : String} {rhs : Expr} (h0 : ∀ a ∈ addends rhs, Expr.fn .x [.num 0] ∉ factors a) :
    (findMax n rhs).1 = ((addends rhs).flatMap (shifts n)).foldr max (-2147483648) := by
  unfold findMax
  revert h0
  generalize addends rhs = l
  induction l with
  | nil => intro _; rfl
  | cons a l ih =>
    intro h0
    rw [List.foldr_cons, maxFactor_fst (h0 a (List.mem_cons_self ..)), ih fun b hb => h0 b (List.mem_cons_of_mem _ hb),
      List.flatMap_cons, List.foldr_append]

/-- If classification stops at a negative decrement, the shift is positive. -/
theorem C35_shift_positive {n : String} {ms : ℕ} {rhs : Expr} (h : classify n ms rhs = .fail .negative)
    (h0 : ∀ a ∈ addends rhs, Expr.fn .x [.num 0] ∉ factors a) : 0 < (findMax n rhs).1 := by
  obtain ⟨a, ha, f, hf, d, hd, hneg⟩ := C66_failure h
  rw [C35_shift h0]
  unfold xDecr at hd
  split at hd
  · rename_i arg
    have h1 : decOf n arg ∈ (addends rhs).flatMap (shifts n) := by
      rw [List.mem_flatMap]
      refine ⟨a, ha, ?_⟩
      unfold shifts
      rw [List.mem_filterMap]
      exact ⟨_, hf, rfl⟩
    have h2 : 0 < decOf n arg := by
      have h3 := (getDecrement_spec (K := ℚ) hd).1
      unfold decOf
      rw [hd, Option.getD_some]
      have := Rat.num_neg.mpr hneg
      omega
    have h4 : ∀ (l : List ℤ) (b x : ℤ), x ∈ l → x ≤ l.foldr max b := by
      intro l b x
      induction l with
      | nil => simp
      | cons y l ih =>
        intro hx
        rcases List.mem_cons.mp hx with rfl | hx
        · exact le_max_left _ _
        · exact (ih hx).trans (le_max_right _ _)
    exact h2.trans_le (h4 _ _ _ h1)
  · simp at hd

/-! ## Null decrements -/

theorem eval_noSym {K : Type} [Field K] [CharZero K] (J : Interp K) (n : String) (v : K) (e : Expr)
    (h : has (.sym n) e = false) : ∀ ρ : String → K, eval J (update ρ n v) e = eval J ρ e := by
  induction e using Expr.ind with
  | num q => intro ρ; simp [eval]
  | const q => intro ρ; simp [eval]
  | sym s =>
    intro ρ
    have : s ≠ n := by rintro rfl; simp [has] at h
    simp [eval, this]
  | add l ih =>
    intro ρ
    simp [has] at h
    simp only [eval]
    congr 1
    exact List.map_congr_left fun a ha => ih a ha (h a ha) ρ
  | mul l ih =>
    intro ρ
    simp [has] at h
    simp only [eval]
    congr 1
    exact List.map_congr_left fun a ha => ih a ha (h a ha) ρ
  | pow b e hb he =>
    intro ρ
    simp [has] at h
    simp only [eval, hb h.1 ρ, he h.2 ρ]
  | fn f l ih =>
    intro ρ
    simp [has] at h
    simp only [eval]
    congr 1
    exact List.map_congr_left fun a ha => ih a ha (h a ha) ρ
  | binder k i lo up body hi hlo hup hbody =>
    intro ρ
    simp [has] at h
    obtain ⟨⟨⟨h1, h2⟩, h3⟩, h4⟩ := h
    have hb : ∀ t, bindIdx (update ρ n v) i t = update (bindIdx ρ i t) n v := by
      intro t
      cases i with
      | sym s =>
        have hs : s ≠ n := by rintro rfl; simp [has] at h1
        simp only [bindIdx]
        exact update_comm (Ne.symm hs) _ _ _
      | _ => rfl
    simp only [eval, hlo h2 ρ, hup h3 ρ, hb, hbody h4]

section
variable {K : Type} [Field K] [CharZero K] (I : Interp K)

theorem eval_sumOf (J : Interp K) (ρ : String → K) (l : List Expr) :
    eval J ρ (sumOf l) = (l.map (eval J ρ)).sum := by
  match l with
  | [] => simp [sumOf, eval]
  | [e] => simp [sumOf]
  | a :: b :: l => simp [sumOf, eval]

theorem coeffFactor_spec (n : String) (X : K → K) (ρ : String → K) (v : K) (fs : List Expr) :
    ((fs.foldr (coeffFactor n) (false, .num 1)).1 = true ↔ xn n ∈ fs) ∧
    (fs.map (eval (withX I X) (update ρ n v))).prod
      = eval (withX I X) (update ρ n v) (fs.foldr (coeffFactor n) (false, .num 1)).2 * X v ^ fs.count (xn n) := by
  induction fs with
  | nil => simp [eval]
  | cons f fs ih =>
    obtain ⟨i1, i2⟩ := ih
    rw [List.foldr_cons]
    generalize fs.foldr (coeffFactor n) (false, .num 1) = r at i1 i2
    unfold coeffFactor
    by_cases h : f = xn n
    · subst h
      rw [if_pos rfl, List.map_cons, List.prod_cons, i2, List.count_cons_self, xn, eval_x]
      refine ⟨by simp, ?_⟩
      simp only [eval, update_self]
      ring
    · rw [if_neg h, List.map_cons, List.prod_cons, i2, List.count_cons_of_ne h, eval_mulE]
      refine ⟨by rw [i1]; simp [Ne.symm h], ?_⟩
      ring

/-- `x(n)` occurs at most once as a factor of the terms. -/
def OnceX (n : String) (l : List Expr) : Prop := (l.flatMap factors).count (xn n) ≤ 1

theorem findCoeff_spec (n : String) (X : K → K) (ρ : String → K) (v : K) (l : List Expr) (hl : OnceX n l) :
    (l.map (eval (withX I X) (update ρ n v))).sum
      = eval (withX I X) (update ρ n v) (findCoeff n l).1 * X v + eval (withX I X) (update ρ n v) (findCoeff n l).2 := by
  have key : ∀ l : List Expr, OnceX n l →
      ((l.flatMap factors).count (xn n) = 0 → (l.foldr (coeffTerm n) (.num 0, [])).1 = .num 0) ∧
      (l.map (eval (withX I X) (update ρ n v))).sum
        = eval (withX I X) (update ρ n v) (l.foldr (coeffTerm n) (.num 0, [])).1 * X v
          + ((l.foldr (coeffTerm n) (.num 0, [])).2.map (eval (withX I X) (update ρ n v))).sum := by
    intro l
    induction l with
    | nil => intro _; simp [eval]
    | cons t l ih =>
      intro hl
      unfold OnceX at hl
      rw [List.flatMap_cons, List.count_append] at hl
      obtain ⟨i1, i2⟩ := ih (by unfold OnceX; omega)
      rw [List.foldr_cons, List.map_cons, List.sum_cons, i2, List.flatMap_cons, List.count_append]
      generalize l.foldr (coeffTerm n) (.num 0, []) = r at i1 i2
      unfold coeffTerm
      split
      · rename_i fs
        obtain ⟨c1, c2⟩ := coeffFactor_spec I n X ρ v fs
        have hev : eval (withX I X) (update ρ n v) (.mul fs) = (fs.map (eval (withX I X) (update ρ n v))).prod := by
          simp [eval]
        by_cases h : (fs.foldr (coeffFactor n) (false, .num 1)).1 = true
        · have hm := c1.mp h
          have hcount : fs.count (xn n) = 1 := by
            have : 0 < fs.count (xn n) := List.count_pos_iff.mpr hm
            simp only [factors] at hl; omega
          simp only [factors] at hl ⊢
          have h0 := i1 (by omega)
          rw [if_pos h]
          refine ⟨fun h' => by omega, ?_⟩
          rw [hev, c2, hcount, h0]
          simp [eval]
        · dsimp only
          rw [if_neg h]
          refine ⟨fun h' => i1 (by omega), ?_⟩
          simp only [List.map_cons, List.sum_cons]
          ring
      · rename_i hne
        by_cases h : t = xn n
        · subst h
          rw [if_pos rfl]
          have hc : (factors (xn n)).count (xn n) = 1 := by simp [factors, xn]
          have h0 := i1 (by omega)
          refine ⟨fun h' => by omega, ?_⟩
          rw [h0, xn, eval_x]
          simp [eval]
        · rw [if_neg h]
          refine ⟨fun h' => i1 (by omega), ?_⟩
          simp only [List.map_cons, List.sum_cons]
          ring
  simp only [findCoeff, eval_sumOf]
  exact (key l hl).2

/-- The conditions under which the elimination of `x(n)` is harmless from the index `s` on, and the index `s'` from which
the new recurrence is to be considered.  In `x(n) = a x(n) + b`: `a` is never one; or it is one and the leading
coefficient of `b` is a constant other than zero.  In `x(n) = a x(n)`: `a` is never one. -/
def NullSafe (n : String) (rw' : Rewriter) (X : K → K) (ρ : String → K) (rhs : Expr) (s s' : ℕ) : Prop :=
  match rw'.collect rhs with
  | .add l => OnceX n l ∧
    if (findCoeff n l).1 = .num 1 then
      (s' : ℤ) = s + (findMax n (findCoeff n l).2).1 ∧ has (.sym n) (findMax n (findCoeff n l).2).2 = false ∧
        eval (withX I X) ρ (findMax n (findCoeff n l).2).2 ≠ 0
    else s' = s ∧ ∀ N : ℕ, s ≤ N → eval (withX I X) (update ρ n N) (findCoeff n l).1 ≠ 1
  | .mul l => s' = s ∧ l.count (xn n) ≤ 1 ∧
    (xn n ∈ l → ∀ N : ℕ, s ≤ N → ((l.erase (xn n)).map (eval (withX I X) (update ρ n N))).prod ≠ 1)
  | _ => s' = s

theorem sub_sumOf {n : String} (l : List Expr) (h : ∀ e ∈ l, idxNe n e = true) : idxNe n (sumOf l) = true := by
  match l with
  | [] => simp [sumOf, idxNe]
  | [e] => simpa [sumOf] using h e (by simp)
  | a :: b :: l => simpa [sumOf, idxNe] using h

theorem idxNe_findCoeff {n : String} (l : List Expr) (h : ∀ e ∈ l, idxNe n e = true) :
    idxNe n (findCoeff n l).2 = true := by
  apply sub_sumOf
  induction l with
  | nil => simp
  | cons t l ih =>
    rw [List.foldr_cons]
    have i1 := ih fun e he => h e (List.mem_cons_of_mem _ he)
    generalize l.foldr (coeffTerm n) (.num 0, []) = r at i1
    have h2 : ∀ e ∈ t :: r.2, idxNe n e = true := by
      intro e he
      rcases List.mem_cons.mp he with rfl | he
      · exact h e (List.mem_cons_self ..)
      · exact i1 e he
    unfold coeffTerm
    split
    · dsimp only; split_ifs
      · exact i1
      · exact h2
    · split_ifs
      · exact i1
      · exact h2

/-- **C67** (what the code guarantees): under the conditions `NullSafe`, a sequence satisfies the recurrence with `x(n)` on
the right-hand side from `s` on if and only if it satisfies the new one from `s'` on.  Missing: the other cases, which
are refuted below. -/
theorem C67_null_partial {n : String} {rw' : Rewriter} (hrw : RwOk n rw') {rhs new : Expr} (hid : idxNe n rhs = true)
    (h : elimNull n rw' rhs = .ok new) (X : K → K) (ρ : String → K) (s s' : ℕ)
    (hsafe : NullSafe I n rw' X ρ rhs s s') : SolvesAt I n rhs ρ X s ↔ SolvesAt I n new ρ X s' := by
  have hcol := hrw.collect_eval K
  have hidc := hrw.collect_idx rhs hid
  unfold elimNull at h
  unfold NullSafe at hsafe
  split at h
  · rename_i l hl
    rw [hl] at hsafe
    dsimp only at hsafe h
    obtain ⟨hone, hsafe⟩ := hsafe
    have hval : ∀ v, eval (withX I X) (update ρ n v) rhs
        = eval (withX I X) (update ρ n v) (findCoeff n l).1 * X v + eval (withX I X) (update ρ n v) (findCoeff n l).2 := by
      intro v
      rw [← findCoeff_spec I n X ρ v l hone, ← hcol, hl]
      simp [eval]
    have hidb : idxNe n (findCoeff n l).2 = true := by
      apply idxNe_findCoeff
      rw [hl] at hidc
      exact idxNe_addends hidc
    by_cases h1 : (findCoeff n l).1 = .num 1
    · rw [if_pos h1] at h hsafe
      obtain ⟨hs', hcn, hc0⟩ := hsafe
      have hnew : new = nullCase3 n (findCoeff n l).2 := by
        split at h <;> simp at h
        exact h.symm
      subst hnew
      set b := (findCoeff n l).2 with hb
      have hcv : ∀ v, eval (withX I X) (update ρ n v) (findMax n b).2 = eval (withX I X) ρ (findMax n b).2 :=
        fun v => eval_noSym _ n v _ hcn ρ
      have hidr : idxNe n (subE b (mulE (findMax n b).2 (.fn .x [shiftN n (findMax n b).1]))) = true := by
        refine idxNe_subE hidb (idxNe_mulE (idxNe_findMax hidb) ?_)
        simpa [idxNe] using idxNe_shiftN n ((findMax n b).1 : ℚ)
      have hcase : ∀ v, eval (withX I X) (update ρ n v) (nullCase3 n b)
          = X v - eval (withX I X) (update ρ n (v - (findMax n b).1)) b / eval (withX I X) ρ (findMax n b).2 := by
        intro v
        unfold nullCase3
        dsimp only
        rw [eval_divE, eval_mulE, eval_subst_shift _ hidr, eval_subE, eval_mulE, eval_x, eval_shiftN, hcv, hcv]
        simp only [eval, update_self]
        push_cast
        have : v + -((findMax n b).1 : K) + ((findMax n b).1 : K) = v := by ring
        rw [this, sub_eq_add_neg]
        field_simp
        ring_nf
      have hiff : ∀ N M : ℕ, (M : ℤ) = N + (findMax n b).1 →
          (X N = eval (withX I X) (update ρ n N) rhs ↔ X M = eval (withX I X) (update ρ n M) (nullCase3 n b)) := by
        intro N M hM
        have h2 : ((M : K) - ((findMax n b).1 : ℤ)) = (N : K) := by
          have : ((M : ℤ) : K) = ((N + (findMax n b).1 : ℤ) : K) := by rw [hM]
          push_cast at this
          rw [this]; ring
        rw [hval, hcase, h2, h1]
        simp only [eval, Rat.cast_one, one_mul]
        constructor
        · intro h
          have : eval (withX I X) (update ρ n N) b = 0 := by linear_combination -h
          rw [this]; simp
        · intro h
          have : eval (withX I X) (update ρ n N) b / eval (withX I X) ρ (findMax n b).2 = 0 := by linear_combination h
          rw [div_eq_zero_iff] at this
          rcases this with h | h
          · rw [h, add_zero]
          · exact absurd h hc0
      constructor
      · intro h M hM
        have h1 : ((M - (findMax n b).1).toNat : ℤ) = M - (findMax n b).1 := Int.toNat_of_nonneg (by omega)
        exact (hiff (M - (findMax n b).1).toNat M (by omega)).mp (h _ (by omega))
      · intro h N hN
        have h1 : ((N + (findMax n b).1).toNat : ℤ) = N + (findMax n b).1 := Int.toNat_of_nonneg (by omega)
        exact (hiff N (N + (findMax n b).1).toNat (by omega)).mpr (h _ (by omega))
    · rw [if_neg h1] at h hsafe
      obtain ⟨rfl, ha⟩ := hsafe
      cases h
      unfold SolvesAt
      refine forall_congr' fun N => forall_congr' fun hN => ?_
      rw [hval]
      have hdiv := eval_divE (withX I X) (update ρ n (N : K)) (findCoeff n l).2 (subE (.num 1) (findCoeff n l).1)
      unfold divE at hdiv
      rw [hdiv, eval_subE]
      simp only [eval, Rat.cast_one]
      have h3 : 1 - eval (withX I X) (update ρ n (N : K)) (findCoeff n l).1 ≠ 0 := sub_ne_zero.mpr (ha N hN).symm
      rw [eq_div_iff h3]
      constructor
      · intro h; linear_combination h
      · intro h; linear_combination h
  · rename_i l hl
    rw [hl] at hsafe
    dsimp only at hsafe
    obtain ⟨rfl, hcnt, hm⟩ := hsafe
    have hval : ∀ v, eval (withX I X) (update ρ n v) rhs = (l.map (eval (withX I X) (update ρ n v))).prod := by
      intro v
      rw [← hcol, hl]
      simp [eval]
    by_cases hx : xn n ∈ l
    · rw [if_pos (by simpa using hx)] at h
      cases h
      unfold SolvesAt
      refine forall_congr' fun N => forall_congr' fun hN => ?_
      have hp : (l.map (eval (withX I X) (update ρ n (N : K)))).prod
          = X N * ((l.erase (xn n)).map (eval (withX I X) (update ρ n N))).prod := by
        rw [((List.perm_cons_erase hx).map _).prod_eq, List.map_cons, List.prod_cons, xn, eval_x]
        simp [eval]
      rw [hval, hp]
      simp only [eval, Rat.cast_zero]
      constructor
      · intro h
        by_contra h0
        exact hm hx N hN (mul_left_cancel₀ h0 (by rw [← h, mul_one]))
      · intro h; rw [h, zero_mul]
    · rw [if_neg (by simpa using hx)] at h
      cases h
      unfold SolvesAt
      refine forall_congr' fun N => forall_congr' fun hN => ?_
      rw [hval]; simp [eval]
  · rename_i hna hnm
    split_ifs at h with hx
    cases h
    have hs : s' = s := by
      split at hsafe
      · rename_i l hl; exact absurd hl (hna _)
      · rename_i l hl; exact absurd hl (hnm _)
      · exact hsafe
    subst hs
    unfold SolvesAt
    refine forall_congr' fun N => forall_congr' fun hN => ?_
    rw [hcol]

/-- **C67**: a recurrence declared indeterminate is satisfied by every sequence. -/
theorem C67_indeterminate {n : String} {rw' : Rewriter} (hrw : RwOk n rw') {rhs : Expr}
    (h : elimNull n rw' rhs = .indeterminate) (X : K → K) (ρ : String → K) (s : ℕ) : SolvesAt I n rhs ρ X s := by
  unfold elimNull at h
  split at h
  · dsimp only at h
    split_ifs at h
    split at h <;> simp at h
  · split_ifs at h
  · split_ifs at h with hx
    intro N _
    rw [← hrw.collect_eval K, hx, xn, eval_x]
    simp [eval]

/-- **C67** (what the code guarantees): a recurrence declared unsolvable has the form `x(n) = x(n) + b`; it has no solution
if `b` does not contain the unknown and does not vanish at some `n ≥ s`.  Missing: the unknown inside powers and
functions, which the code does not see (`C67_unsolvable_refuted`). -/
theorem C67_unsolvable_partial {n : String} {rw' : Rewriter} (hrw : RwOk n rw') {rhs : Expr}
    (h : elimNull n rw' rhs = .unsolvable) : ∃ l, rw'.collect rhs = .add l ∧ (findCoeff n l).1 = .num 1 ∧
      (OnceX n l → hasX (findCoeff n l).2 = false → ∀ (ρ : String → K) (s : ℕ) (N : ℕ), s ≤ N →
        eval (withX I fun _ => 0) (update ρ n N) (findCoeff n l).2 ≠ 0 → ¬∃ X : K → K, SolvesAt I n rhs ρ X s) := by
  unfold elimNull at h
  split at h
  · rename_i l hl
    dsimp only at h
    by_cases h1 : (findCoeff n l).1 = .num 1
    · refine ⟨l, hl, h1, fun hone hX ρ s N hN h0 => ?_⟩
      rintro ⟨X, hsol⟩
      have h2 := hsol N hN
      rw [← hrw.collect_eval K, hl] at h2
      have h3 := findCoeff_spec I n X ρ N l hone
      rw [show eval (withX I X) (update ρ n (N : K)) (.add l) = (l.map (eval (withX I X) (update ρ n (N : K)))).sum by
        simp [eval], h3, h1] at h2
      simp only [eval, Rat.cast_one, one_mul] at h2
      have h4 : eval (withX I X) (update ρ n (N : K)) (findCoeff n l).2 = 0 := by linear_combination -h2
      apply h0
      rw [← h4]
      exact eval_noX I _ _ _ hX _
    · rw [if_neg h1] at h; simp at h
  · split_ifs at h
  · split_ifs at h

/-! ## The whole rewriting -/

/-- A sequence of harmless rewritings, each one done because of the outcome of the classification. -/
inductive Chain (n : String) (ms : ℕ) (rw' : Rewriter) (X : K → K) (ρ : String → K) : Expr → ℕ → Expr → ℕ → Prop
  | refl (e : Expr) (s : ℕ) : Chain n ms rw' X ρ e s e s
  | neg {rhs e : Expr} {s s1 s' : ℕ} (h : classify n ms rhs = .fail .negative)
      (hs : (s1 : ℤ) = s + (findMax n rhs).1)
      (hc : ∀ N : ℕ, s ≤ N → eval (withX I X) (update ρ n N) (findMax n rhs).2 ≠ 0)
      (hid : idxNe n rhs = true)
      (hr : Chain n ms rw' X ρ (elimNegative n rw' rhs) s1 e s') : Chain n ms rw' X ρ rhs s e s'
  | null {rhs new e : Expr} {s s1 s' : ℕ} (h : classify n ms rhs = .fail .null) (hn : elimNull n rw' rhs = .ok new)
      (hsafe : NullSafe I n rw' X ρ rhs s s1) (hid : idxNe n rhs = true)
      (hr : Chain n ms rw' X ρ new s1 e s') : Chain n ms rw' X ρ rhs s e s'

theorem chain_iff {n : String} {ms : ℕ} {rw' : Rewriter} (hrw : RwOk n rw') {X : K → K} {ρ : String → K} {rhs e : Expr}
    {s s' : ℕ} (h : Chain I n ms rw' X ρ rhs s e s') : SolvesAt I n rhs ρ X s ↔ SolvesAt I n e ρ X s' := by
  induction h with
  | refl => exact Iff.rfl
  | neg h hs hc hid hr ih => exact (C35_negative I hrw hid X ρ _ _ hs hc).trans ih
  | null h hn hsafe hid hr ih => exact (C67_null_partial I hrw hid hn X ρ _ _ hsafe).trans ih

/-- **C67**, the whole rewriting: if the rewriting of `rhs` ends with the linear recurrence of finite order recorded in
`st`, and every single rewriting was harmless for `X`, then `X` satisfies the given recurrence from `s` on if and only
if it satisfies the recorded one from `s'` on. -/
theorem C67_recorded_partial {n : String} {ms : ℕ} {rw' : Rewriter} (hrw : RwOk n rw') {X : K → K} {ρ : String → K}
    {rhs e : Expr} {s s' : ℕ} (h : Chain I n ms rw' X ρ rhs s e s') {st : St} (hst : classify n ms e = .ok st)
    (hl : st.ty = .orderZero ∨ st.ty = .linConst ∨ st.ty = .linVar) :
    SolvesAt I n rhs ρ X s ↔ ∀ N : ℕ, s' ≤ N →
      X N = ∑ i ∈ Finset.range st.coeffs.length,
          eval (withX I X) (update ρ n N) (st.coeffs.getD i (.num 0)) * X ((N : K) - i)
        + eval (withX I X) (update ρ n N) st.inhom :=
  (chain_iff I hrw h).trans (C36_solutions hst hl I X ρ s')

end

/-- What is executed: when the rewriting stops, it has gone through right-hand sides each of which comes from the previous
one by one of the two eliminations, prompted by the outcome of the classification. -/
inductive Rewrites (n : String) (ms : ℕ) (rw' : Rewriter) : Expr → Expr → Prop
  | refl (e : Expr) : Rewrites n ms rw' e e
  | neg {rhs e : Expr} (h : classify n ms rhs = .fail .negative) (hr : Rewrites n ms rw' (elimNegative n rw' rhs) e) :
      Rewrites n ms rw' rhs e
  | null {rhs new e : Expr} (h : classify n ms rhs = .fail .null) (hn : elimNull n rw' rhs = .ok new)
      (hr : Rewrites n ms rw' new e) : Rewrites n ms rw' rhs e

/-- **C67**, execution: the answer of the whole rewriting is the classification of the last right-hand side reached, unless
the last elimination of `x(n)` failed; in particular the answer is never "negative decrement" or "null decrement". -/
theorem C67_run {n : String} {ms : ℕ} {rw' : Rewriter} {fuel : ℕ} {rhs e : Expr} {r : Res}
    (h : run n ms rw' fuel rhs = some (e, r)) : Rewrites n ms rw' rhs e ∧ r ≠ .fail .negative ∧ r ≠ .fail .null ∧
      (classify n ms e = r ∨ classify n ms e = .fail .null ∧
        (elimNull n rw' e = .unsolvable ∧ r = .fail .unsolvable ∨
         elimNull n rw' e = .indeterminate ∧ r = .fail .indeterminate ∨
         elimNull n rw' e = .tooComplex ∧ r = .fail .tooComplex)) := by
  induction fuel generalizing rhs with
  | zero => simp [run] at h
  | succ f ih =>
    rw [run] at h
    split at h
    · rename_i hc
      obtain ⟨h1, h2⟩ := ih h
      exact ⟨.neg hc h1, h2⟩
    · rename_i hc
      split at h
      · rename_i e' he
        obtain ⟨h1, h2⟩ := ih h
        exact ⟨.null hc he h1, h2⟩
      · rename_i he
        cases h
        exact ⟨.refl _, by simp, by simp, .inr ⟨hc, .inl ⟨he, rfl⟩⟩⟩
      · rename_i he
        cases h
        exact ⟨.refl _, by simp, by simp, .inr ⟨hc, .inr (.inl ⟨he, rfl⟩)⟩⟩
      · rename_i he
        cases h
        exact ⟨.refl _, by simp, by simp, .inr ⟨hc, .inr (.inr ⟨he, rfl⟩)⟩⟩
    · rename_i h1 h2
      simp only [Option.some.injEq, Prod.mk.injEq] at h
      obtain ⟨rfl, rfl⟩ := h
      exact ⟨.refl _, h1, h2, .inl rfl⟩

/-! ## What goes wrong -/

/-- A rewriter that does nothing: the expressions below are already expanded and collected. -/
def idRw : Rewriter := ⟨id, id⟩

theorem idRw_ok (n : String) : RwOk n idRw := ⟨fun _ _ _ _ _ _ => rfl, fun _ _ _ _ _ _ => rfl, fun _ h => h, fun _ h => h⟩

theorem classify_null (n : String) (ms : ℕ) (rhs : Expr) (as : List Expr) (h : addends rhs = xn n :: as) :
    classify n ms rhs = .fail .null := by
  unfold classify
  rw [h, loopFrom]
  simp [summand, xn, findNonLinear, kindOf, hasXOf, single, singleX]

/-- **C67** is false for `x(n) = n x(n)`: it is replaced by `x(n) = 0`, although `x(1)` can be any number. -/
theorem C67_product_refuted : ∃ (rhs new : Expr), elimNull "n" idRw rhs = .ok new ∧
    ∃ X : ℚ → ℚ, SolvesAt ratInterp "n" rhs (fun _ => 0) X 0 ∧ ∀ s', ¬SolvesAt ratInterp "n" new (fun _ => 0) X s' ∨
      1 < s' := by
  refine ⟨.mul [.sym "n", xn "n"], .num 0, by simp [elimNull, idRw], fun v => if v = 1 then 5 else 0, ?_, ?_⟩
  · intro N _
    have : eval (withX ratInterp fun v => if v = 1 then (5 : ℚ) else 0) (update (fun _ => 0) "n" (N : ℚ)) (xn "n")
        = if (N : ℚ) = 1 then 5 else 0 := by rw [xn, eval_x]; simp [eval]
    simp only [eval, List.map_cons, List.map_nil, List.prod_cons, List.prod_nil, mul_one]
    rw [this]
    simp only [update_self]
    split_ifs with h
    · rw [h, one_mul]
    · simp
  · intro s'
    by_cases h : 1 < s'
    · exact .inr h
    · left
      intro hsol
      have := hsol 1 (by omega)
      simp [eval] at this

/-- **C67** is false for `x(n) = x(n) + n x(n-1) - 1`, i.e. `x(n) = 1/(n+1)`: the new right-hand side is `1/n`, because the
leading coefficient is not shifted. -/
theorem C67_coefficient_refuted : ∃ (rhs new : Expr), classify "n" 1000 rhs = .fail .null ∧
    elimNull "n" idRw rhs = .ok new ∧
    ∃ X : ℚ → ℚ, SolvesAt ratInterp "n" rhs (fun _ => 0) X 1 ∧ ∀ s', ¬SolvesAt ratInterp "n" new (fun _ => 0) X s' := by
  refine ⟨.add [xn "n", .mul [.sym "n", .fn .x [.add [.sym "n", .num (-1)]]], .num (-1)],
    nullCase3 "n" (.add [.mul [.sym "n", .fn .x [.add [.sym "n", .num (-1)]]], .num (-1)]),
    classify_null _ _ _ _ rfl, ?_, fun v => 1 / (v + 1), ?_, ?_⟩
  · have h1 : findCoeff "n" [xn "n", .mul [.sym "n", .fn .x [.add [.sym "n", .num (-1)]]], .num (-1)]
        = (.num 1, .add [.mul [.sym "n", .fn .x [.add [.sym "n", .num (-1)]]], .num (-1)]) := by
      simp [findCoeff, coeffTerm, coeffFactor, xn, sumOf]
    have h2 : scan "n" (.add [.mul [.sym "n", .fn .x [.add [.sym "n", .num (-1)]]], .num (-1)]) = .seen := by
      simp [scan, scanTerm, scanFactor, okArg, getDecrement]
    simp [elimNull, idRw, h1, h2]
  · intro N hN
    have hx : eval (withX ratInterp fun v => 1 / (v + 1)) (update (fun _ => 0) "n" (N : ℚ)) (xn "n") = 1 / (N + 1) := by
      rw [xn, eval_x]; simp [eval]
    have hx1 : eval (withX ratInterp fun v => 1 / (v + 1)) (update (fun _ => 0) "n" (N : ℚ))
        (.fn .x [.add [.sym "n", .num (-1)]]) = 1 / N := by
      rw [eval_x]; simp [eval]
    have h0 : (N : ℚ) ≠ 0 := by exact_mod_cast (show N ≠ 0 by omega)
    rw [show ∀ (J : Interp ℚ) (ρ : String → ℚ) (a b c d : Expr), eval J ρ (.add [a, .mul [b, c], d])
      = eval J ρ a + (eval J ρ b * eval J ρ c + eval J ρ d) by intros; simp [eval], hx, hx1]
    simp only [eval, update_self]
    field_simp
    push_cast; ring
  · intro s' hsol
    have hm : findMax "n" (.add [.mul [.sym "n", .fn .x [.add [.sym "n", .num (-1)]]], .num (-1)])
        = (-1, .sym "n") := by
      simp [findMax, addends, maxFactor, maxStep, assignMax, decOf, getDecrement, mulE]
    have h := hsol (s' + 1) (by omega)
    unfold nullCase3 at h
    rw [hm] at h
    dsimp only at h
    have hid : idxNe "n" (subE (.add [.mul [.sym "n", .fn .x [.add [.sym "n", .num (-1)]]], .num (-1)])
        (mulE (.sym "n") (.fn .x [shiftN "n" ((-1 : ℤ) : ℚ)]))) = true := by
      refine idxNe_subE (by simp [idxNe]) (idxNe_mulE (by simp [idxNe]) ?_)
      simpa [idxNe] using idxNe_shiftN "n" ((-1 : ℤ) : ℚ)
    rw [eval_divE, eval_mulE, eval_subst_shift _ hid, eval_subE, eval_mulE, eval_x, eval_shiftN,
      show ∀ (J : Interp ℚ) (ρ : String → ℚ) (b c d : Expr), eval J ρ (.add [.mul [b, c], d])
        = eval J ρ b * eval J ρ c + eval J ρ d by intros; simp [eval], eval_x] at h
    simp only [eval, List.map_cons, List.map_nil, List.sum_cons, List.sum_nil, update_self] at h
    push_cast at h
    have h1 : ((s' : ℚ) + 1) ≠ 0 := by positivity
    have h2 : ((s' : ℚ) + 1 + 1) ≠ 0 := by positivity
    have h3 : (1 : ℚ) / (s' + 1 + 1) = 1 / (s' + 1) := by
      rw [h]
      field_simp
      ring
    rw [div_eq_div_iff h2 h1] at h3
    linarith

/-- **C67** is false for the answer "unsolvable": `x(n) = x(n) + x(n-1)^2 - 4` is declared unsolvable, but the constant
sequence 2 satisfies it. -/
theorem C67_unsolvable_refuted : ∃ rhs : Expr, run "n" 1000 idRw 1 rhs = some (rhs, .fail .unsolvable) ∧
    ∃ X : ℚ → ℚ, SolvesAt ratInterp "n" rhs (fun _ => 0) X 0 := by
  refine ⟨.add [xn "n", .pow (.fn .x [.add [.sym "n", .num (-1)]]) (.num 2), .num (-4)], ?_, fun _ => 2, ?_⟩
  · have h1 : findCoeff "n" [xn "n", .pow (.fn .x [.add [.sym "n", .num (-1)]]) (.num 2), .num (-4)]
        = (.num 1, .add [.pow (.fn .x [.add [.sym "n", .num (-1)]]) (.num 2), .num (-4)]) := by
      simp [findCoeff, coeffTerm, xn, sumOf]
    have h2 : scan "n" (.add [.pow (.fn .x [.add [.sym "n", .num (-1)]]) (.num 2), .num (-4)]) = .go := by
      simp [scan, scanTerm, scanFactor]
    rw [run, classify_null _ _ _ _ rfl]
    simp [elimNull, idRw, h1, h2]
  · intro N _
    have hp := (withX ratInterp fun _ => (2 : ℚ)).pw_int 2 2
    have hx : ∀ (ρ : String → ℚ) a, eval (withX ratInterp fun _ => (2 : ℚ)) ρ (.fn .x [a]) = 2 := fun ρ a => eval_x ..
    rw [show ∀ (J : Interp ℚ) (ρ : String → ℚ) (a b c : Expr), eval J ρ (.add [a, b, c])
      = eval J ρ a + (eval J ρ b + eval J ρ c) by intros; simp [eval], xn, hx,
      show ∀ (J : Interp ℚ) (ρ : String → ℚ) (a b : Expr), eval J ρ (.pow a b) = J.pw (eval J ρ a) (eval J ρ b) by
        intros; simp [eval], hx]
    simp only [eval]
    push_cast at hp ⊢
    rw [hp]; norm_num

/-! ## Examples -/

/-- `x(n) = 2 x(n+2) + n`: the shift is 2, the coefficient 2. -/
example : findMax "n" (.add [.mul [.num 2, .fn .x [.add [.sym "n", .num 2]]], .sym "n"]) = (2, .num 2) := by
  simp [findMax, addends, maxFactor, maxStep, assignMax, decOf, getDecrement, mulE]

/-- `x(n) = 2 x(n+2) + n` from 0 on is `x(n) = (-x(n-2) + n - 2)/(-2)` from 2 on. -/
example (X : ℚ → ℚ) (ρ : String → ℚ) :
    SolvesAt ratInterp "n" (.add [.mul [.num 2, .fn .x [.add [.sym "n", .num 2]]], .sym "n"]) ρ X 0 ↔
      SolvesAt ratInterp "n" (elimNegative "n" idRw (.add [.mul [.num 2, .fn .x [.add [.sym "n", .num 2]]], .sym "n"]))
        ρ X 2 := by
  have hm : findMax "n" (.add [.mul [.num 2, .fn .x [.add [.sym "n", .num 2]]], .sym "n"]) = (2, .num 2) := by
    simp [findMax, addends, maxFactor, maxStep, assignMax, decOf, getDecrement, mulE]
  apply C35_negative ratInterp (idRw_ok "n") (by simp [idxNe])
  · rw [hm]; rfl
  · intro N _; rw [hm]; simp [eval]

/-- `x(n) = 3 x(n) + x(n-1)` is `x(n) = x(n-1) (1-3)^(-1)`. -/
example (X : ℚ → ℚ) (ρ : String → ℚ) : ∃ new,
    elimNull "n" idRw (.add [.mul [.num 3, xn "n"], .fn .x [.add [.sym "n", .num (-1)]]]) = .ok new ∧
    (SolvesAt ratInterp "n" (.add [.mul [.num 3, xn "n"], .fn .x [.add [.sym "n", .num (-1)]]]) ρ X 1 ↔
      SolvesAt ratInterp "n" new ρ X 1) := by
  have h1 : findCoeff "n" [.mul [.num 3, xn "n"], .fn .x [.add [.sym "n", .num (-1)]]]
      = (.num 3, .fn .x [.add [.sym "n", .num (-1)]]) := by
    simp [findCoeff, coeffTerm, coeffFactor, xn, sumOf, mulE]
  refine ⟨_, by simp [elimNull, idRw, h1]; rfl, ?_⟩
  apply C67_null_partial ratInterp (idRw_ok "n") (by simp [idxNe, xn]) (by simp [elimNull, idRw, h1])
  simp only [NullSafe, idRw, id]
  rw [h1]
  refine ⟨by simp [OnceX, factors, xn], ?_⟩
  simp [eval]

/-! ## The answer `too complex` -/

/-- `n - c` with `c` a number, or `n`. -/
def Shift (n : String) (arg : Expr) : Prop := arg = .sym n ∨ (getDecrement n arg).isSome

theorem okArg_iff {n : String} {arg : Expr} : okArg n arg = true ↔ Shift n arg := by
  unfold okArg Shift; simp

theorem scanFactor_cases (n : String) (f : Expr) (st : Scan) :
    scanFactor n f st = st ∨ ∃ arg, f = .fn .x [arg] ∧ (st = .go ∨ st = .seen) ∧
      (Shift n arg ∧ scanFactor n f st = .stop ∨ ¬Shift n arg ∧ scanFactor n f st = .complex) := by
  unfold scanFactor
  cases st
  case stop => left; rfl
  case complex => left; rfl
  all_goals
    simp only
    split
    · rename_i arg
      right
      refine ⟨arg, rfl, by simp, ?_⟩
      by_cases h : okArg n arg = true
      · left; exact ⟨okArg_iff.1 h, by rw [if_pos h]⟩
      · right; exact ⟨fun hh => h (okArg_iff.2 hh), by rw [if_neg h]⟩
    · left; rfl

/-- The factors read one after the other: the last `x` decides. -/
theorem factors_scan (n : String) (l : List Expr) :
    (l.foldr (scanFactor n) .go = .complex → ∃ arg, .fn .x [arg] ∈ l ∧ ¬Shift n arg) ∧
    ((∀ arg, .fn .x [arg] ∈ l → ¬Shift n arg) → l.foldr (scanFactor n) .go ≠ .stop ∧
      (l.foldr (scanFactor n) .go = .go → ∀ arg, .fn .x [arg] ∉ l)) ∧
    l.foldr (scanFactor n) .go ≠ .seen := by
  induction l with
  | nil => simp
  | cons f l ih =>
    obtain ⟨i1, i2, i3⟩ := ih
    simp only [List.foldr_cons]
    generalize l.foldr (scanFactor n) .go = st at *
    rcases scanFactor_cases n f st with h | ⟨arg, rfl, hst, h⟩
    · rw [h]
      refine ⟨fun hc => ?_, fun hall => ?_, i3⟩
      · obtain ⟨arg, h1, h2⟩ := i1 hc
        exact ⟨arg, List.mem_cons_of_mem _ h1, h2⟩
      · obtain ⟨j1, j2⟩ := i2 fun arg ha => hall arg (List.mem_cons_of_mem _ ha)
        refine ⟨j1, fun hg arg ha => ?_⟩
        rcases List.mem_cons.1 ha with rfl | ha
        · subst hg
          have : okArg n arg = false := by
            by_contra hh
            exact hall arg List.mem_cons_self (okArg_iff.1 (by simpa using hh))
          simp [scanFactor, this] at h
        · exact j2 hg arg ha
    · rcases h with ⟨hs, h⟩ | ⟨hs, h⟩
      · rw [h]
        refine ⟨by simp, fun hall => absurd hs (hall arg List.mem_cons_self), by simp⟩
      · rw [h]
        exact ⟨fun _ => ⟨arg, List.mem_cons_self, hs⟩, fun _ => ⟨by simp, by simp⟩, by simp⟩

theorem single_spec (n : String) (t : Expr) (st : Scan) :
    (scanFactor n t st = .complex → st = .complex ∨ ∃ arg, .fn .x [arg] ∈ [t] ∧ ¬Shift n arg) ∧
    (st = .complex → scanFactor n t st = .complex) ∧
    ((∀ arg, .fn .x [arg] ∈ [t] → ¬Shift n arg) → st = .go →
      scanFactor n t st = .complex ∨ scanFactor n t st = .go ∧ ∀ arg, .fn .x [arg] ∉ [t]) := by
  rcases scanFactor_cases n t st with h | ⟨arg, rfl, hst, ⟨hs, h⟩ | ⟨hs, h⟩⟩
  · rw [h]
    refine ⟨fun h => Or.inl h, fun h => h, fun hall hgo => Or.inr ⟨hgo, fun arg ha => ?_⟩⟩
    subst hgo
    obtain rfl : .fn .x [arg] = t := by simpa using ha
    have : okArg n arg = false := by
      by_contra hh
      exact hall arg ha (okArg_iff.1 (by simpa using hh))
    simp [scanFactor, this] at h
  · rw [h]
    exact ⟨by simp, by rintro rfl; simp at hst, fun hall => absurd hs (hall arg (by simp))⟩
  · rw [h]
    exact ⟨fun _ => Or.inr ⟨arg, by simp, hs⟩, fun _ => rfl, fun _ _ => Or.inl rfl⟩

theorem scanTerm_spec (n : String) (t : Expr) (st : Scan) :
    (scanTerm n t st = .complex → st = .complex ∨ ∃ arg, .fn .x [arg] ∈ factors t ∧ ¬Shift n arg) ∧
    (st = .complex → scanTerm n t st = .complex) ∧
    ((∀ arg, .fn .x [arg] ∈ factors t → ¬Shift n arg) → st = .go →
      scanTerm n t st = .complex ∨ scanTerm n t st = .go ∧ ∀ arg, .fn .x [arg] ∉ factors t) := by
  by_cases hm : ∃ l, t = .mul l
  · obtain ⟨l, rfl⟩ := hm
    obtain ⟨i1, i2, i3⟩ := factors_scan n l
    unfold scanTerm factors
    cases st
    case stop => simp
    case complex => simp
    all_goals
      simp only
      generalize l.foldr (scanFactor n) .go = r at *
      cases r <;> simp_all
  · have h1 : factors t = [t] := by cases t <;> simp_all [factors]
    have h2 : scanTerm n t st = scanFactor n t st := by
      cases st <;> cases t <;> simp_all [scanTerm, scanFactor]
    rw [h1, h2]
    exact single_spec n t st

theorem scan_spec (n : String) (b : Expr) :
    (scan n b = .complex → ∃ t ∈ addends b, ∃ arg, .fn .x [arg] ∈ factors t ∧ ¬Shift n arg) ∧
    ((∀ t ∈ addends b, ∀ arg, .fn .x [arg] ∈ factors t → ¬Shift n arg) →
      (∃ t ∈ addends b, ∃ arg, .fn .x [arg] ∈ factors t) → scan n b = .complex) := by
  by_cases hm : ∃ l, b = .add l
  · obtain ⟨l, rfl⟩ := hm
    suffices (l.foldr (scanTerm n) .go = .complex → ∃ t ∈ l, ∃ arg, .fn .x [arg] ∈ factors t ∧ ¬Shift n arg) ∧
        ((∀ t ∈ l, ∀ arg, .fn .x [arg] ∈ factors t → ¬Shift n arg) →
          l.foldr (scanTerm n) .go = .complex ∨
            l.foldr (scanTerm n) .go = .go ∧ ∀ t ∈ l, ∀ arg, .fn .x [arg] ∉ factors t) by
      refine ⟨this.1, fun h1 h2 => (this.2 h1).resolve_right ?_⟩
      rintro ⟨_, h3⟩
      obtain ⟨t, ht, arg, ha⟩ := h2
      exact h3 t ht arg ha
    induction l with
    | nil => simp
    | cons t l ih =>
      obtain ⟨i1, i2⟩ := ih
      simp only [List.foldr_cons]
      obtain ⟨j1, j2, j3⟩ := scanTerm_spec n t (l.foldr (scanTerm n) .go)
      refine ⟨fun h => ?_, fun h => ?_⟩
      · rcases j1 h with h | ⟨arg, h⟩
        · obtain ⟨t', h1, h2⟩ := i1 h
          exact ⟨t', List.mem_cons_of_mem _ h1, h2⟩
        · exact ⟨t, List.mem_cons_self, arg, h⟩
      · rcases i2 fun t' ht' => h t' (List.mem_cons_of_mem _ ht') with h1 | ⟨h1, h2⟩
        · exact Or.inl (j2 h1)
        · rcases j3 (h t List.mem_cons_self) h1 with h3 | ⟨h3, h4⟩
          · exact Or.inl h3
          · refine Or.inr ⟨h3, fun t' ht' => ?_⟩
            rcases List.mem_cons.1 ht' with rfl | ht'
            · exact h4
            · exact h2 t' ht'
  · have h1 : addends b = [b] := by cases b <;> simp_all [addends]
    have h2 : scan n b = scanTerm n b .go ∨ ∃ l, b = .mul l ∧ scan n b = l.foldr (scanFactor n) .go := by
      cases b <;> simp_all [scanTerm, scan]
    rw [h1]
    rcases h2 with h2 | ⟨l, rfl, h2⟩
    · obtain ⟨j1, j2, j3⟩ := scanTerm_spec n b .go
      rw [h2]
      refine ⟨fun h => ?_, fun h3 h4 => (j3 (h3 b (by simp)) rfl).resolve_right ?_⟩
      · exact ⟨b, by simp, (j1 h).resolve_left (by simp)⟩
      · rintro ⟨_, h5⟩
        obtain ⟨t, ht, arg, ha⟩ := h4
        obtain rfl : t = b := by simpa using ht
        exact h5 arg ha
    · rw [h2]
      obtain ⟨i1, i2, i3⟩ := factors_scan n l
      refine ⟨fun h => ⟨.mul l, by simp, i1 h⟩, fun h3 h4 => ?_⟩
      obtain ⟨j1, j2⟩ := i2 (h3 (.mul l) (by simp))
      obtain ⟨t, ht, arg, ha⟩ := h4
      obtain rfl : t = .mul l := by simpa using ht
      generalize l.foldr (scanFactor n) .go = r at *
      cases r
      · exact absurd ha (j2 rfl arg)
      · exact absurd rfl i3
      · exact absurd rfl j1
      · rfl

/-- **C67** (the answer `too complex`).  It is given only if a term other than those in `x(n)` has a factor `x` whose
argument is neither `n` nor `n - c`; and it is given, when the coefficient of `x(n)` is one, if there is a factor `x`
and the arguments of all of them are such. -/
theorem C67_too_complex {n : String} {rw' : Rewriter} {rhs : Expr} :
    (elimNull n rw' rhs = .tooComplex → ∃ l, rw'.collect rhs = .add l ∧ (findCoeff n l).1 = .num 1 ∧
      ∃ t ∈ addends (findCoeff n l).2, ∃ arg, .fn .x [arg] ∈ factors t ∧ arg ≠ .sym n ∧ getDecrement n arg = none) ∧
    (∀ l, rw'.collect rhs = .add l → (findCoeff n l).1 = .num 1 →
      (∀ t ∈ addends (findCoeff n l).2, ∀ arg, .fn .x [arg] ∈ factors t → arg ≠ .sym n ∧ getDecrement n arg = none) →
      (∃ t ∈ addends (findCoeff n l).2, ∃ arg, .fn .x [arg] ∈ factors t) → elimNull n rw' rhs = .tooComplex) := by
  have hsh : ∀ arg, ¬Shift n arg ↔ arg ≠ .sym n ∧ getDecrement n arg = none := by
    intro arg; unfold Shift; push Not; simp
  refine ⟨fun h => ?_, fun l hl h1 hall hex => ?_⟩
  · unfold elimNull at h
    split at h
    · rename_i l hl
      dsimp only at h
      by_cases h1 : (findCoeff n l).1 = .num 1
      · rw [if_pos h1] at h
        have : scan n (findCoeff n l).2 = .complex := by
          cases hs : scan n (findCoeff n l).2 <;> simp [hs] at h ⊢
        obtain ⟨t, ht, arg, ha, hb⟩ := (scan_spec n _).1 this
        exact ⟨l, hl, h1, t, ht, arg, ha, (hsh arg).1 hb⟩
      · rw [if_neg h1] at h; simp at h
    · split_ifs at h
    · split_ifs at h
  · have := (scan_spec n (findCoeff n l).2).2 (fun t ht arg ha => (hsh arg).2 (hall t ht arg ha)) hex
    unfold elimNull
    rw [hl]
    dsimp only
    rw [if_pos h1, this]

/-- A concrete case: `x(n) = x(n) + x(n/2)`. -/
example : elimNull "n" idRw (.add [xn "n", .fn .x [.mul [.num (1/2), .sym "n"]]]) = .tooComplex := by
  have h1 : findCoeff "n" [xn "n", .fn .x [.mul [.num (1/2), .sym "n"]]] = (.num 1, .fn .x [.mul [.num (1/2), .sym "n"]]) := by
    simp [findCoeff, coeffTerm, xn, sumOf]
  refine C67_too_complex.2 _ rfl (by rw [h1]) ?_ ?_
  · rw [h1]
    intro t ht arg ha
    simp only [addends, List.mem_singleton] at ht
    subst ht
    simp only [factors, List.mem_singleton, Expr.fn.injEq, true_and, List.cons.injEq, and_true] at ha
    subst ha
    simp [getDecrement]
  · rw [h1]
    exact ⟨_, by simp [addends]; rfl, _, by simp [factors]; rfl⟩

end Purrs.Eliminate
