import Verif.Model.VerifyBound
import Verif.Props.VerifyWA
import Verif.Props.NonLinearBounds

/-!
# C160: the inductive step in the verification of bounds
-/

set_option linter.unusedSectionVars false

namespace Purrs.Verify

open Purrs Purrs.OrderRed Purrs.WeightedAvg
open Function (update update_self)

variable {n : String}

/-! ### The inequality -/

theorem has_addE {a b : Expr} (h : has (.sym n) a = true ∨ has (.sym n) b = true) : has (.sym n) (addE a b) = true := by
  cases a <;> cases b <;> simp only [addE] <;> (try split) <;> simp_all [has, or_assoc]

theorem split_fold (l : List Expr) : ((splitN n (.add l)).1 = .num 0 ∨ has (.sym n) (splitN n (.add l)).1 = true) ∧
    ∀ (I : Interp ℝ) ρ, eval I ρ (.add l) = eval I ρ (splitN n (.add l)).1 + eval I ρ (splitN n (.add l)).2 := by
  induction l with
  | nil => exact ⟨Or.inl rfl, fun I ρ => by simp [splitN, eval]⟩
  | cons t l ih =>
    have e : splitN n (.add (t :: l)) = if has (.sym n) t then (addE (splitN n (.add l)).1 t, (splitN n (.add l)).2)
      else ((splitN n (.add l)).1, addE (splitN n (.add l)).2 t) := rfl
    have e2 : ∀ (I : Interp ℝ) ρ, eval I ρ (.add (t :: l)) = eval I ρ t + eval I ρ (.add l) := fun I ρ => by
      rw [eval, eval, List.map_cons, List.sum_cons]
    obtain ⟨h1, h2⟩ := ih
    rw [e]
    by_cases ht : has (.sym n) t = true
    · rw [if_pos ht]
      exact ⟨Or.inr (has_addE (Or.inr ht)), fun I ρ => by rw [e2, h2, eval_addE]; ring⟩
    · rw [if_neg ht]
      exact ⟨h1, fun I ρ => by rw [e2, h2, eval_addE]; ring⟩

theorem powN_value {f : Expr} (h : isPowN n f = true) : ∃ k : ℕ, 1 ≤ k ∧ ∀ (I : Interp ℝ) ρ, eval I ρ f = ρ n ^ k := by
  unfold isPowN at h
  split at h
  · rename_i m
    simp at h
    subst h
    exact ⟨1, le_rfl, fun I ρ => by simp [eval]⟩
  · rename_i m ex
    simp only [Bool.and_eq_true, decide_eq_true_eq] at h
    obtain ⟨rfl, h⟩ := h
    unfold isPosInt at h
    split at h
    · rename_i q
      simp only [Bool.and_eq_true, decide_eq_true_eq] at h
      refine ⟨q.num.toNat, by omega, fun I ρ => ?_⟩
      have e : (q : ℝ) = ((q.num.toNat : ℕ) : ℝ) := by
        rw [ratCast_of_den_one h.1]
        have : ((q.num.toNat : ℤ) : ℝ) = (q.num : ℝ) := by rw [Int.toNat_of_nonneg (by omega)]
        rw [← this]
        push_cast
        rfl
      rw [eval, eval, eval, e, pw_nat]
    · cases h
  · cases h

theorem mulE_num {a b : Expr} {d : ℚ} (h : mulE a b = .num d) (hd : d ≠ 0) : ∃ p q, a = .num p ∧ b = .num q := by
  cases a <;> cases b <;> simp only [mulE] at h <;> (try split at h) <;> (try split at h) <;> (try split at h) <;> simp_all

/-- A product whose other factors multiply to a number. -/
theorem coeff_fold (l : List Expr) {d : ℚ} (hd : d ≠ 0)
    (h : l.foldr (fun f acc => if isPowN n f then acc else mulE acc f) (.num 1) = .num d) :
    ∃ k : ℕ, (k = 0 → ∀ f ∈ l, ∃ q, f = .num q) ∧ ∀ (I : Interp ℝ) ρ, (l.map fun a => eval I ρ a).prod = d * ρ n ^ k := by
  induction l generalizing d with
  | nil =>
    simp only [List.foldr_nil, Expr.num.injEq] at h
    subst h
    exact ⟨0, by simp, by simp⟩
  | cons f l ih =>
    rw [List.foldr_cons] at h
    by_cases hf : isPowN n f = true
    · rw [if_pos hf] at h
      obtain ⟨k, -, h2⟩ := ih hd h
      obtain ⟨j, hj, h3⟩ := powN_value hf
      refine ⟨j + k, fun h0 => by omega, fun I ρ => ?_⟩
      rw [List.map_cons, List.prod_cons, h2, h3, pow_add]
      ring
    · rw [if_neg hf] at h
      obtain ⟨p, q, hp, hq⟩ := mulE_num h hd
      rw [hp, hq] at h
      simp only [mulE, Expr.num.injEq] at h
      obtain ⟨k, h1, h2⟩ := ih (d := p) (by rintro rfl; simp at h; exact hd h.symm) hp
      refine ⟨k, fun h0 g hg => ?_, fun I ρ => ?_⟩
      · rcases List.mem_cons.mp hg with rfl | hg
        · exact ⟨q, hq⟩
        · exact h1 h0 g hg
      · rw [List.map_cons, List.prod_cons, h2, hq, ← h]
        simp only [eval]
        push_cast
        ring

/-- A product with `n` whose other factors multiply to a number is at least that number times `n`. -/
theorem coeff_value {l : List Expr} {d : ℚ} (hd : d ≠ 0) (h : coeffN n (.mul l) = .num d) :
    ∃ k : ℕ, (has (.sym n) (.mul l) = true → 1 ≤ k) ∧ ∀ (I : Interp ℝ) ρ, eval I ρ (.mul l) = d * ρ n ^ k := by
  obtain ⟨k, h1, h2⟩ := coeff_fold l hd h
  refine ⟨k, fun hh => ?_, fun I ρ => by rw [eval]; exact h2 I ρ⟩
  by_contra hk
  have hall := h1 (by omega)
  simp only [has, reduceCtorEq, decide_false, Bool.false_or, List.any_map, List.any_eq_true] at hh
  obtain ⟨f, hf, hn⟩ := hh
  obtain ⟨q, rfl⟩ := hall f hf
  simp [has] at hn

/-- **C160**: if `ok_inequalities` accepts a sum, its value is not negative from the index `condition` on, whatever the symbols and functions in it
mean. -/
theorem C160_inequality {e : Expr} {c : ℕ} (h : okInequalities n e c = true) (hadd : ∃ l, e = .add l) (I : Interp ℝ) (ρ : String → ℝ) (N : ℕ)
    (hN : c ≤ N) : 0 ≤ eval I (update ρ n (N : ℝ)) e := by
  obtain ⟨l, rfl⟩ := hadd
  unfold okInequalities at h
  simp only [Bool.and_eq_true] at h
  obtain ⟨h1, h2⟩ := h
  obtain ⟨hw, hsum⟩ := split_fold (n := n) l
  have hs := hsum I (update ρ n (N : ℝ))
  rw [hs]
  clear hs hsum
  generalize (splitN n (.add l)).1 = w at h1 h2 hw ⊢
  generalize (splitN n (.add l)).2 = o at h2 ⊢
  unfold ineqNumbers at h2
  split at h2
  swap
  · cases h2
  rename_i d m hd
  simp only [decide_eq_true_eq] at h2
  obtain ⟨d0, m0, hc⟩ := h2
  have hcR : -(m : ℝ) ≤ d * c := by
    rw [div_le_iff₀ d0] at hc
    have : ((-m : ℚ) : ℝ) ≤ ((c * d : ℚ) : ℝ) := by exact_mod_cast hc
    push_cast at this
    linarith
  have d0R : (0 : ℝ) < d := by exact_mod_cast d0
  have m0R : (m : ℝ) < 0 := by exact_mod_cast m0
  have hNc : (c : ℝ) ≤ N := by exact_mod_cast hN
  have hc1 : 1 ≤ c := by
    rcases Nat.eq_zero_or_pos c with rfl | h
    · simp at hcR; linarith
    · exact h
  have hN1 : (1 : ℝ) ≤ N := by exact_mod_cast hc1.trans hN
  have key : (d : ℝ) * N ≤ eval I (update ρ n (N : ℝ)) w := by
    simp only [Bool.or_eq_true, decide_eq_true_eq] at h1
    rcases h1 with rfl | h1
    · simp only [coeffN, Expr.num.injEq] at hd
      subst hd
      simp [eval]
    · cases w with
      | mul fs =>
        rcases hw with hw | hw
        · cases hw
        obtain ⟨k, k1, k2⟩ := coeff_value d0.ne' hd
        have hk := k1 hw
        rw [k2, update_self]
        refine mul_le_mul_of_nonneg_left ?_ d0R.le
        calc (N : ℝ) = N ^ 1 := (pow_one _).symm
          _ ≤ N ^ k := pow_le_pow_right₀ hN1 hk
      | _ => simp [isMul] at h1
  have : (d : ℝ) * c ≤ d * N := mul_le_mul_of_nonneg_left hNc d0R.le
  simp only [eval]
  linarith

/-! ### The inductive step -/

/-- The unknown is applied to `d` only, and there are no sums and products. -/
def onlyX (d : Expr) : Expr → Bool
  | .add l => (l.map fun a => onlyX d a).all id
  | .mul l => (l.map fun a => onlyX d a).all id
  | .pow b e => onlyX d b && onlyX d e
  | .fn f l => if f = .x then l = [d] else (l.map fun a => onlyX d a).all id
  | .binder .. => false
  | _ => true

theorem fn_off (ξ η : ℝ → ℝ) {f : Fn} (hf : f ≠ .x) : realFn ξ f = realFn η f := by
  funext l
  match f, l with
  | .x, _ => exact absurd rfl hf
  | .other _, [] => rfl
  | .other _, [_] => rfl
  | .other _, _ :: _ :: _ => rfl
  | f, [] => cases f <;> rfl
  | f, [_] => cases f <;> first | exact absurd rfl hf | rfl
  | f, [_, _] => cases f <;> rfl
  | f, _ :: _ :: _ :: _ => cases f <;> rfl

/-- Replacing the applications of `x` by an expression is giving `x` its value there. -/
theorem subst_x (ξ η : ℝ → ℝ) (ρ : String → ℝ) (d r : Expr) (hd : eval (realInterp ξ) ρ r = η (eval (realInterp η) ρ d)) (e : Expr)
    (hb : onlyX d e = true) : eval (realInterp ξ) ρ (substitute (.fn .x [d]) r e) = eval (realInterp η) ρ e := by
  induction e using Expr.ind with
  | num q => simp [substitute, eval]
  | const q => simp [substitute, eval, realInterp]
  | sym t => simp [substitute, eval]
  | add l ih =>
    simp [onlyX] at hb
    rw [substitute, if_neg (by simp)]
    simp only [eval_foldr_addE, eval, Rat.cast_zero, zero_add]
    congr 1
    exact List.map_congr_left fun a ha => ih a ha (hb a ha)
  | mul l ih =>
    simp [onlyX] at hb
    rw [substitute, if_neg (by simp)]
    simp only [eval_foldr_mulE, eval, Rat.cast_one, one_mul]
    congr 1
    exact List.map_congr_left fun a ha => ih a ha (hb a ha)
  | pow b e ihb ihe =>
    simp [onlyX] at hb
    rw [substitute, if_neg (by simp), eval_powE, ihb hb.1, ihe hb.2, eval]
    rfl
  | fn f l ih =>
    simp only [substitute]
    by_cases hf : f = .x
    · subst hf
      simp only [onlyX, if_true, decide_eq_true_eq] at hb
      subst hb
      rw [if_pos rfl, hd, eval]
      rfl
    · rw [if_neg (by simp [hf])]
      simp [onlyX, hf] at hb
      simp only [eval, List.map_map]
      show realFn ξ f _ = realFn η f _
      rw [fn_off ξ η hf]
      congr 1
      exact List.map_congr_left fun a ha => ih a ha (hb a ha)
  | binder k i a b c hi ha hbb hc => simp [onlyX] at hb

/-- The value of `e` at the real number `t`, where `x` is the function `ξ`. -/
noncomputable def realAt (ξ : ℝ → ℝ) (ρ : String → ℝ) (n : String) (e : Expr) (t : ℝ) : ℝ := eval (realInterp ξ) (update ρ n t) e

/-- A transformation of expressions keeps the values at the positive integers. -/
def KeepsAt (ρ : String → ℝ) (n : String) (f : Expr → Expr) : Prop := ∀ ξ e (N : ℕ), 1 ≤ N → realAt ξ ρ n (f e) N = realAt ξ ρ n e N

theorem decide_value {c : ℕ} {diff : Expr} (h : decideDiff n c diff = .correct) (ξ : ℝ → ℝ) (ρ : String → ℝ) (N : ℕ) (hN : c ≤ N) :
    0 ≤ realAt ξ ρ n diff N := by
  unfold decideDiff at h
  split at h
  · rename_i q
    split_ifs at h with g
    have : (0 : ℝ) ≤ q := by exact_mod_cast g
    simpa [realAt, eval] using this
  · rename_i l
    split at h
    · rename_i q hq
      split_ifs at h with g
      obtain ⟨k, -, hk⟩ := coeff_value g.ne' hq
      have g' : (0 : ℝ) < q := by exact_mod_cast g
      unfold realAt
      rw [hk, update_self]
      positivity
    · cases h
  · rename_i l
    split_ifs at h with g
    exact C160_inequality g ⟨l, rfl⟩ _ _ N hN
  · cases h

theorem nDiv_value (I : Interp ℝ) (ρ : String → ℝ) (b : ℚ) : eval I ρ (nDiv n b) = ρ n / b := by
  rw [nDiv, eval_mulE]
  simp only [eval]
  push_cast
  ring

variable {simp canon : Expr → Expr} {ρ : String → ℝ} {c : ℕ} {b : ℚ} {rhs p : Expr} {upper : Bool}

/-- **C160.**  If the steps 3 and 4 accept the candidate `p`, then `p` satisfies the inequality of the induction: put for `x` into the right-hand side, it
gives at every `n ≥ condition` no more (for a lower bound: no less) than `p` itself.  The candidate may contain `x`, with the meaning `ξ`; on the
right-hand side `x` is any function `η` that has at `n/b` the value of `p`. -/
theorem C160_step (h : boundRest simp canon n upper c b rhs p = .correct) (hs : KeepsAt ρ n simp) (hc : KeepsAt ρ n canon)
    (hi : idxNe n p = true) (hb : onlyX (nDiv n b) rhs = true) (ξ η : ℝ → ℝ) (N : ℕ) (hη : η ((N : ℝ) / b) = realAt ξ ρ n p ((N : ℝ) / b))
    (h1 : 1 ≤ N) (hN : c ≤ N) :
    if upper then realAt η ρ n rhs N ≤ realAt ξ ρ n p N else realAt ξ ρ n p N ≤ realAt η ρ n rhs N := by
  unfold boundRest at h
  split_ifs at h with hw
  have hd := decide_value h ξ ρ N hN
  unfold diffB at hd
  rw [hc _ _ N h1] at hd
  have ha : realAt ξ ρ n (simp (substitute (.fn .x [nDiv n b]) (substitute (.sym n) (nDiv n b) p) rhs)) N = realAt η ρ n rhs N := by
    rw [hs _ _ N h1]
    refine subst_x ξ η _ _ _ ?_ _ hb
    rw [eval_substN _ (fun σ s v hsn => by rw [nDiv_value, nDiv_value, Function.update_of_ne hsn.symm]) hi, nDiv_value, nDiv_value, update_self,
      Function.update_idem]
    exact hη.symm
  have hsub : ∀ u v, realAt ξ ρ n (subE u v) N = realAt ξ ρ n u N - realAt ξ ρ n v N := fun u v => by
    unfold realAt
    rw [eval_subE]
  cases upper with
  | true =>
    simp only [if_true] at hd ⊢
    rw [hsub, ha] at hd
    linarith
  | false =>
    simp only [Bool.false_eq_true, if_false] at hd ⊢
    rw [hsub, ha] at hd
    linarith

/-- **C160**, the base of the induction: an accepted candidate whose value at the applicability condition is computed as a number has a value there
that is not negative (for a lower bound: not positive). -/
theorem C160_base {q : ℚ} (h : boundRest simp canon n upper c b rhs p = .correct) (hi : idxNe n p = true)
    (hq : substitute (.sym n) (.num c) p = .num q) (ξ : ℝ → ℝ) :
    if upper then 0 ≤ realAt ξ ρ n p c else realAt ξ ρ n p c ≤ 0 := by
  have e : realAt ξ ρ n p c = q := by
    have := eval_substN (r := .num c) (n := n) (realInterp ξ) (fun σ s v _ => by simp [eval]) hi ρ
    rw [hq] at this
    simp only [eval] at this
    rw [this]
    simp [realAt]
  unfold boundRest at h
  split_ifs at h with hw
  unfold wrongSign at hw
  rw [hq] at hw
  rw [e]
  cases upper with
  | true =>
    simp only [if_true, decide_eq_true_eq, not_lt] at hw ⊢
    exact_mod_cast hw
  | false =>
    simp only [Bool.false_eq_true, if_false, decide_eq_true_eq, not_lt] at hw ⊢
    exact_mod_cast hw

variable {ξ : ℝ → ℝ} {a : ℝ} {B : ℕ} {g : ℕ → ℝ}

/-- **C160**, upper bounds: let the right-hand side be `a x(n/b) + g(n)`.  If the steps 3 and 4 accept `p`, not decreasing, then
`H + p`, where `H` is an upper bound for the homogeneous equation, is an upper bound of every function that satisfies the equation (with the integer part of
`n/b`), as soon as it is one for the initial values. -/
theorem C160_upper_partial (h : boundRest simp canon n true c (B : ℚ) rhs p = .correct) (hs : KeepsAt ρ n simp) (hc : KeepsAt ρ n canon)
    (hi : idxNe n p = true) (hb : onlyX (nDiv n (B : ℚ)) rhs = true)
    (hr : ∀ (X : ℝ → ℝ) (N : ℕ), realAt X ρ n rhs N = a * X ((N : ℝ) / B) + g N) (ha : 0 ≤ a) (hB : 2 ≤ B) (hcB : c ≤ B)
    (hmono : ∀ s t : ℝ, 1 ≤ s → s ≤ t → realAt ξ ρ n p s ≤ realAt ξ ρ n p t)
    (hξ : Bounds.Satisfies ξ a B g) (H : ℕ → ℝ) (hH : ∀ m : ℕ, B ≤ m → a * H (m / B) ≤ H m)
    (h0 : ∀ i : ℕ, 1 ≤ i → i < B → ξ i ≤ H i + realAt ξ ρ n p i) (N : ℕ) (hN : 1 ≤ N) : ξ N ≤ H N + realAt ξ ρ n p N := by
  induction N using Nat.strong_induction_on with
  | _ N ih =>
    rcases Nat.lt_or_ge N B with hlt | hge
    · exact h0 N hN hlt
    have hq : 1 ≤ N / B := (Nat.one_le_div_iff (by omega)).2 hge
    have h1 := ih (N / B) (Nat.div_lt_self (by omega) (by omega)) hq
    have h2 := C160_step h hs hc hi hb ξ (realAt ξ ρ n p) N rfl hN (hcB.trans hge)
    simp only [if_true, hr] at h2
    have h3 : realAt ξ ρ n p ((N / B : ℕ) : ℝ) ≤ realAt ξ ρ n p ((N : ℝ) / B) := hmono _ _ (by exact_mod_cast hq) Nat.cast_div_le
    rw [hξ N hge]
    have h4 := hH N hge
    have h5 := mul_le_mul_of_nonneg_left (h1.trans (add_le_add_right h3 _)) ha
    linarith

/-- **C160**, lower bounds: the same for `p` not increasing. -/
theorem C160_lower_partial (h : boundRest simp canon n false c (B : ℚ) rhs p = .correct) (hs : KeepsAt ρ n simp) (hc : KeepsAt ρ n canon)
    (hi : idxNe n p = true) (hb : onlyX (nDiv n (B : ℚ)) rhs = true)
    (hr : ∀ (X : ℝ → ℝ) (N : ℕ), realAt X ρ n rhs N = a * X ((N : ℝ) / B) + g N) (ha : 0 ≤ a) (hB : 2 ≤ B) (hcB : c ≤ B)
    (hmono : ∀ s t : ℝ, 1 ≤ s → s ≤ t → realAt ξ ρ n p t ≤ realAt ξ ρ n p s)
    (hξ : Bounds.Satisfies ξ a B g) (H : ℕ → ℝ) (hH : ∀ m : ℕ, B ≤ m → H m ≤ a * H (m / B))
    (h0 : ∀ i : ℕ, 1 ≤ i → i < B → H i + realAt ξ ρ n p i ≤ ξ i) (N : ℕ) (hN : 1 ≤ N) : H N + realAt ξ ρ n p N ≤ ξ N := by
  induction N using Nat.strong_induction_on with
  | _ N ih =>
    rcases Nat.lt_or_ge N B with hlt | hge
    · exact h0 N hN hlt
    have hq : 1 ≤ N / B := (Nat.one_le_div_iff (by omega)).2 hge
    have h1 := ih (N / B) (Nat.div_lt_self (by omega) (by omega)) hq
    have h2 := C160_step h hs hc hi hb ξ (realAt ξ ρ n p) N rfl hN (hcB.trans hge)
    simp only [Bool.false_eq_true, if_false, hr] at h2
    have h3 : realAt ξ ρ n p ((N : ℝ) / B) ≤ realAt ξ ρ n p ((N / B : ℕ) : ℝ) := hmono _ _ (by exact_mod_cast hq) Nat.cast_div_le
    rw [hξ N hge]
    have h4 := hH N hge
    have h5 := mul_le_mul_of_nonneg_left ((add_le_add_right h3 _).trans h1) ha
    linarith

end Purrs.Verify
