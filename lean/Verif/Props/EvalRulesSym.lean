import Verif.Props.EvalRules

/-!
# C24: the evaluation rules for symbolic arguments, and where they are wrong
-/

set_option linter.unusedSectionVars false

namespace Purrs.EvalRules

open Purrs Purrs.OrderRed Purrs.WeightedAvg
open Function (update update_of_ne update_self update_comm)
open Finset (Icc range)

/-! ### `mod` -/

theorem fdiv_floor (a b : ℤ) (hb : b ≠ 0) : a.fdiv b = ⌊(a : ℝ) / b⌋ := by
  symm
  rw [Int.floor_eq_iff]
  have h := Int.fmod_add_mul_fdiv a b
  have h' : (a : ℝ) = (a.fmod b : ℤ) + b * (a.fdiv b : ℤ) := by exact_mod_cast h.symm
  have hb' : (b : ℝ) ≠ 0 := by exact_mod_cast hb
  have e : (a : ℝ) / b = (a.fmod b : ℤ) / b + (a.fdiv b : ℤ) := by rw [h']; field_simp
  rw [e]
  rcases lt_or_gt_of_ne hb with hn | hp
  · have h12 : a.fmod b ≤ 0 ∧ b < a.fmod b := by
      have e1 := Int.emod_nonneg a hb
      have e2 := Int.emod_lt_of_neg a hn
      rw [Int.fmod_eq_emod]
      by_cases hd : b ∣ a
      · rw [if_pos (.inr hd), Int.emod_eq_zero_of_dvd hd]; omega
      · have : a % b ≠ 0 := fun h => hd (Int.dvd_of_emod_eq_zero h)
        rw [if_neg (by push Not; exact ⟨hn, hd⟩)]; omega
    obtain ⟨h1, h2⟩ := h12
    have h1 : ((a.fmod b : ℤ) : ℝ) ≤ 0 := by exact_mod_cast h1
    have h2 : (b : ℝ) < (a.fmod b : ℤ) := by exact_mod_cast h2
    have hn : (b : ℝ) < 0 := by exact_mod_cast hn
    have h3 : 0 ≤ ((a.fmod b : ℤ) : ℝ) / b := div_nonneg_of_nonpos h1 hn.le
    have h4 : ((a.fmod b : ℤ) : ℝ) / b < 1 := by rw [div_lt_one_of_neg hn]; exact h2
    exact ⟨by linarith, by linarith⟩
  · have h1 : 0 ≤ a.fmod b := Int.fmod_nonneg_of_pos _ hp
    have h2 : a.fmod b < b := Int.fmod_lt_of_pos _ hp
    have h1 : (0 : ℝ) ≤ ((a.fmod b : ℤ) : ℝ) := by exact_mod_cast h1
    have h2 : ((a.fmod b : ℤ) : ℝ) < b := by exact_mod_cast h2
    have hp : (0 : ℝ) < b := by exact_mod_cast hp
    have h3 : 0 ≤ ((a.fmod b : ℤ) : ℝ) / b := div_nonneg h1 hp.le
    have h4 : ((a.fmod b : ℤ) : ℝ) / b < 1 := by rw [div_lt_one hp]; exact h2
    exact ⟨by linarith, by linarith⟩

/-- The mathematical remainder `a - b ⌊a/b⌋`. -/
noncomputable def rmod (a b : ℝ) : ℝ := a - b * (⌊a / b⌋ : ℤ)

theorem modNum_int {a b r : ℚ} (ha : a.den = 1) (hb : b.den = 1) (h : modNum a b = some r) : (r : ℝ) = rmod a b := by
  rw [modNum, if_pos ⟨ha, hb⟩] at h
  split_ifs at h with h0
  obtain rfl := Option.some.inj h
  have hb0 : b.num ≠ 0 := fun hz => h0 (Rat.num_eq_zero.mp hz)
  unfold rmod
  rw [ratCast_of_den_one ha, ratCast_of_den_one hb, ← fdiv_floor _ _ hb0]
  have h2 := Int.fmod_add_mul_fdiv a.num b.num
  have h3 : ((a.num.fmod b.num : ℤ) : ℝ) + b.num * (a.num.fdiv b.num : ℤ) = a.num := by exact_mod_cast h2
  push_cast
  linarith

theorem rmod_shift {b : ℝ} (hb : b ≠ 0) (v h : ℝ) (hz : rmod h b = 0) : rmod (v + h) b = rmod v b := by
  unfold rmod at *
  have hh : h = b * (⌊h / b⌋ : ℤ) := by linarith
  have : (v + h) / b = v / b + (⌊h / b⌋ : ℤ) := by
    rw [add_div]
    congr 1
    field_simp
    linarith
  rw [this, Int.floor_add_intCast]
  push_cast
  linarith

/-- The arguments to which the rules of `mod` are properly applied: integers, or a symbol plus an integer, or something the rules
leave alone. -/
def ModArgs : Expr → Expr → Prop
  | .num a, .num b => a.den = 1 ∧ b.den = 1
  | .add [.sym _, .num h], .num _ => h.den = 1
  | .add [.num h, .sym _], .num _ => h.den = 1
  | _, _ => True

theorem modShift_sound (ξ : ℝ → ℝ) (ρ : String → ℝ) {s : String} {h k : ℚ} {w r : Expr} (hh : h.den = 1) (hk : k.den = 1)
    (hw : eval (realInterp ξ) ρ w = ρ s + h) (hr : modShift s h k w = some r) :
    eval (realInterp ξ) ρ r = rmod (eval (realInterp ξ) ρ w) k := by
  unfold modShift at hr
  cases hm : modNum h k with
  | none => rw [hm] at hr; exact absurd hr (by simp)
  | some c =>
    rw [hm] at hr
    have hc := modNum_int hh hk hm
    have hk0 : (k : ℝ) ≠ 0 := by
      intro hz
      have hz : k = 0 := by exact_mod_cast hz
      rw [modNum, if_pos ⟨hh, hk⟩, if_pos hz] at hm
      exact absurd hm (by simp)
    dsimp only at hr
    split_ifs at hr with h0
    · obtain rfl := Option.some.inj hr
      have h1 : eval (realInterp ξ) ρ (.fn .mod [.sym s, .num k]) = rmod (ρ s) k := by simp [eval, realInterp, realFn, rmod]
      rw [h1, hw, rmod_shift hk0]
      rw [← hc, h0]; simp
    · obtain rfl := Option.some.inj hr
      simp [eval, realInterp, realFn, rmod]

/-- **C24, mod** (partial: integer numbers only): the rules keep the value of `mod(x, y)`. -/
theorem C24_mod_partial (ξ : ℝ → ℝ) (ρ : String → ℝ) {x y r : Expr} (hxy : ModArgs x y) (h : modEval x y = some r) :
    eval (realInterp ξ) ρ r = rmod (eval (realInterp ξ) ρ x) (eval (realInterp ξ) ρ y) := by
  have hold : ∀ x y : Expr, eval (realInterp ξ) ρ (.fn .mod [x, y]) = rmod (eval (realInterp ξ) ρ x) (eval (realInterp ξ) ρ y) := by
    intro x y; simp [eval, realInterp, realFn, rmod]
  unfold modEval at h
  split at h
  · rename_i a b
    simp only [Option.map_eq_some_iff] at h
    obtain ⟨c, hc, rfl⟩ := h
    simp only [eval]
    exact modNum_int hxy.1 hxy.2 hc
  · rename_i s c k
    split_ifs at h with hk
    · simpa only [eval] using modShift_sound ξ ρ hxy hk (by simp [eval]) h
    · obtain rfl := Option.some.inj h; exact hold _ _
  · rename_i c s k
    split_ifs at h with hk
    · simpa only [eval] using modShift_sound ξ ρ hxy hk (by simp [eval, add_comm]) h
    · obtain rfl := Option.some.inj h; exact hold _ _
  · obtain rfl := Option.some.inj h; exact hold _ _

/-- The rules reject `mod(a, 0)` for an integer `a`. -/
theorem C24_mod_zero_partial (a : ℤ) : modEval (.num a) (.num 0) = none := by
  simp [modEval, modNum]

/-- **C24, mod, refuted in general**: `mod(n + 1/2, 2)` is evaluated to `mod(n, 2)`; at `n = 1` the first is `3/2` (and `0` by the
numeric rule itself), the second is `1`. -/
theorem C24_mod_refuted : modEval (.add [.sym "n", .num (1 / 2)]) (.num 2) = some (.fn .mod [.sym "n", .num 2]) ∧
    rmod (1 + 1 / 2) 2 = 3 / 2 ∧ rmod 1 2 = 1 ∧ modEval (.num (1 + 1 / 2)) (.num 2) = some (.num 0) ∧
    modEval (.num 1) (.num 2) = some (.num 1) := by
  have d1 : (1 / 2 : ℚ).den = 2 := by norm_num
  have d2 : (1 + 1 / 2 : ℚ).den = 2 := by norm_num
  have f1 : ⌊((1 : ℝ) + 1 / 2) / 2⌋ = 0 := by rw [Int.floor_eq_iff]; norm_num
  have f2 : ⌊(1 : ℝ) / 2⌋ = 0 := by rw [Int.floor_eq_iff]; norm_num
  refine ⟨?_, ?_, ?_, ?_, ?_⟩
  · simp only [modEval, modShift, modNum, d1]
    simp
  · unfold rmod; rw [f1]; norm_num
  · unfold rmod; rw [f2]; norm_num
  · simp only [modEval, modNum, d2]
    simp
  · simp [modEval, modNum]

/-- `mod(-7, 3) = 2`, `mod(7, -3) = -2`, `mod(n + 6, 3) = mod(n, 3)`. -/
theorem C24_mod_nonvacuous : modEval (.num (-7)) (.num 3) = some (.num 2) ∧ modEval (.num 7) (.num (-3)) = some (.num (-2)) ∧
    modEval (.add [.sym "n", .num 6]) (.num 3) = some (.fn .mod [.sym "n", .num 3]) := by
  refine ⟨?_, ?_, ?_⟩
  · simp [modEval, modNum]
  · simp [modEval, modNum]
  · simp only [modEval, modShift, modNum]
    simp

/-! ### Symbolic upper limits -/

section
variable {K : Type} [Field K] [CharZero K] (I : Interp K)

theorem outFactors_spec (i : String) (e : Expr) : (∀ ρ : String → K, eval I ρ (outFactors i e).1 * eval I ρ (outFactors i e).2 = eval I ρ e) ∧
    has (.sym i) (outFactors i e).2 = false := by
  have hleaf : ∀ e : Expr, (∀ ρ : String → K, eval I ρ (if has (.sym i) e then (mulE (.num 1) e, Expr.num 1) else (.num 1, mulE (.num 1) e)).1 *
      eval I ρ (if has (.sym i) e then (mulE (.num 1) e, Expr.num 1) else (.num 1, mulE (.num 1) e)).2 = eval I ρ e) ∧
      has (.sym i) (if has (.sym i) e then (mulE (.num 1) e, Expr.num 1) else (.num 1, mulE (.num 1) e)).2 = false := by
    intro e
    cases he : has (.sym i) e
    · exact ⟨fun ρ => by simp [eval_mulE, eval], by simpa using Classify.has_mulE (by simp [has]) he⟩
    · exact ⟨fun ρ => by simp [eval_mulE, eval], by simp [has]⟩
  cases e with
  | mul l =>
    simp only [outFactors, eval]
    induction l with
    | nil => exact ⟨fun ρ => by simp [eval], by simp [has]⟩
    | cons a l ih =>
      rw [List.foldr_cons]
      cases ha : has (.sym i) a
      · refine ⟨fun ρ => ?_, ?_⟩
        · simp only [Bool.false_eq_true, if_false, eval_mulE, List.map_cons, List.prod_cons, ← ih.1 ρ]; ring
        · simpa using Classify.has_mulE ih.2 ha
      · refine ⟨fun ρ => ?_, ?_⟩
        · simp only [if_true, eval_mulE, List.map_cons, List.prod_cons, ← ih.1 ρ]; ring
        · simpa using ih.2
  | _ => simpa only [outFactors] using hleaf _

theorem eval_upper (lo m : ℤ) (upper : Expr) (ρ : String → K) (hm : eval I ρ upper = m) :
    eval I ρ (addE (subE upper (.num lo)) (.num 1)) = ((m - lo + 1 : ℤ) : K) := by
  rw [eval_addE, eval_subE, hm]
  simp only [eval]
  push_cast
  ring

/-- **C24, sums with a symbolic upper limit** (partial: as long as the value `m` of the limit is at least `lo - 1`): the rules keep
the value of the sum. -/
theorem C24_sum_symbolic_partial (hI : StdBind I) (i : String) (lo : ℤ) {upper body r : Expr} (hu : ∀ q, upper ≠ .num q)
    (h : sumEval i (.num lo) upper body = some r) (ρ : String → K) (m : ℤ) (hm : eval I ρ upper = m) (hlo : lo ≤ m + 1) :
    eval I ρ r = ∑ k ∈ Icc lo m, eval I (update ρ i (k : K)) body := by
  obtain ⟨h1, h2⟩ := outFactors_spec I i body
  have hcard : ((Icc lo m).card : K) = ((m - lo + 1 : ℤ) : K) := by
    rw [Int.card_Icc, ← Int.cast_natCast, Int.toNat_of_nonneg (by omega)]
    congr 1
    ring
  have hout : ∀ k : K, eval I (update ρ i k) (outFactors i body).2 = eval I ρ (outFactors i body).2 := fun k =>
    Eliminate.eval_noSym I i k _ h2 ρ
  unfold sumEval at h
  simp only [Rat.den_intCast, if_true] at h
  by_cases hb : body = .num 1
  · rw [if_pos hb] at h
    obtain rfl := Option.some.inj h
    rw [eval_upper I lo m _ ρ hm, hb]
    simp only [eval, Finset.sum_const, nsmul_eq_mul, hcard, Rat.cast_one, mul_one]
  rw [if_neg hb] at h
  by_cases hin : (outFactors i body).1 = .num 1
  · rw [if_pos hin] at h
    obtain rfl := Option.some.inj h
    rw [eval_mulE, eval_upper I lo m _ ρ hm]
    simp only [← h1, hin, hout]
    simp only [eval, Finset.sum_const, nsmul_eq_mul, hcard, Rat.cast_one, one_mul]
    ring
  · rw [if_neg hin] at h
    obtain rfl := Option.some.inj h
    rw [eval_mulE]
    simp only [eval, bindIdx, hm, Rat.cast_intCast, hI.sum, Finset.mul_sum]
    refine Finset.sum_congr rfl fun k _ => ?_
    rw [← h1, hout, mul_comm]

/-- **C24, sums, refuted in general**: `sum(k, 3, n, 1)` is evaluated to `n - 2`, which is `-2` at `n = 0`; the empty sum is `0`,
which is also what the rule answers for `sum(k, 3, 0, 1)`. -/
theorem C24_sum_refuted : sumEval "k" (.num 3) (.sym "n") (.num 1) = some (.add [.sym "n", .num (-3), .num 1]) ∧
    (∀ ρ : String → ℝ, ρ "n" = 0 → eval (realInterp 0) ρ (.add [.sym "n", .num (-3), .num 1]) = -2) ∧
    ∑ _k ∈ Icc (3 : ℤ) 0, (1 : ℝ) = 0 ∧ sumEval "k" (.num 3) (.num 0) (.num 1) = some (.num 0) := by
  refine ⟨?_, fun ρ h => ?_, by simp, ?_⟩
  · simp [sumEval, subE, negE, mulE, addE]
  · simp [eval, h]; norm_num
  · simp [sumEval]

/-- The part of the product that is free of the index, and the rest. -/
theorem prodOut_sound (hI : StdBind I) (i : String) (lo : ℤ) (upper body : Expr) (ρ : String → K) (m : ℤ)
    (hm : eval I ρ upper = m) (hlo : lo ≤ m + 1) :
    eval I ρ (prodOut i lo upper body) = ∏ k ∈ Icc lo m, eval I (update ρ i (k : K)) body := by
  obtain ⟨h1, h2⟩ := outFactors_spec I i body
  have hout : ∀ k : K, eval I (update ρ i k) (outFactors i body).2 = eval I ρ (outFactors i body).2 := fun k =>
    Eliminate.eval_noSym I i k _ h2 ρ
  have hpow : eval I ρ (powE (outFactors i body).2 (addE (subE upper (.num lo)) (.num 1))) =
      ∏ k ∈ Icc lo m, eval I (update ρ i (k : K)) (outFactors i body).2 := by
    simp only [hout, Finset.prod_const]
    rw [eval_powE, eval_upper I lo m _ ρ hm, I.pw_int, Int.card_Icc, ← zpow_natCast, Int.toNat_of_nonneg (by omega)]
    congr 1
    ring
  unfold prodOut
  split_ifs with hin
  · rw [hpow]
    refine Finset.prod_congr rfl fun k _ => ?_
    rw [← h1, hin]
    simp [eval]
  · rw [eval_mulE, hpow]
    simp only [eval, bindIdx, hm, Rat.cast_intCast, hI.prod]
    rw [← Finset.prod_mul_distrib]
    refine Finset.prod_congr rfl fun k _ => ?_
    rw [← h1, mul_comm]

theorem captureFree_shift {i s : String} (j : ℚ) {e : Expr} (hi : idxNe i e = true) (hs : idxNe s e = true) :
    CaptureFree I i (addE (.sym s) (.num j)) e := by
  induction e using Expr.ind with
  | num q => simp [CaptureFree]
  | const q => simp [CaptureFree]
  | sym t => simp [CaptureFree]
  | add l ih => simp [idxNe] at hi hs; simp [CaptureFree]; exact fun a ha => ih a ha (hi a ha) (hs a ha)
  | mul l ih => simp [idxNe] at hi hs; simp [CaptureFree]; exact fun a ha => ih a ha (hi a ha) (hs a ha)
  | pow b e hb he => simp [idxNe] at hi hs; simp [CaptureFree]; exact ⟨hb hi.1 hs.1, he hi.2 hs.2⟩
  | fn f l ih => simp [idxNe] at hi hs; simp [CaptureFree]; exact fun a ha => ih a ha (hi a ha) (hs a ha)
  | binder k t a b c ht ha hb hc =>
    cases t with
    | sym t =>
      simp [idxNe] at hi hs
      simp only [CaptureFree]
      refine ⟨ha hi.1.1.2 hs.1.1.2, hb hi.1.2 hs.1.2, hc hi.2 hs.2, t, rfl, hi.1.1.1, fun ρ v => ?_⟩
      rw [eval_addE, eval_addE]
      simp [eval, update_of_ne (Ne.symm hs.1.1.1)]
    | _ => simp [idxNe] at hi

theorem eval_substShift {i s : String} (j : ℚ) {e : Expr} (hi : idxNe i e = true) (hs : idxNe s e = true) (ρ : String → K) :
    eval I ρ (substitute (.sym i) (addE (.sym s) (.num j)) e) = eval I (update ρ i (ρ s + j)) e := by
  rw [C100_capture_free_partial I i _ _ (captureFree_shift I j hi hs), eval_addE]
  simp [eval]

theorem prod_Icc_split (f : ℤ → K) {lo a b : ℤ} (h1 : lo ≤ a + 1) (h2 : a ≤ b) :
    ∏ k ∈ Icc lo b, f k = (∏ k ∈ Icc lo a, f k) * ∏ k ∈ Icc (a + 1) b, f k := by
  rw [← Finset.prod_union]
  · congr 1
    ext k
    simp only [Finset.mem_union, Finset.mem_Icc]
    omega
  · rw [Finset.disjoint_left]
    intro k hk hk'
    rw [Finset.mem_Icc] at hk hk'
    omega

/-- The product up to `s + c`, when no factor is free of the index. -/
theorem prodShift_sound (hI : StdBind I) (i : String) (lo c : ℤ) (s : String) {upper body : Expr} (hi : idxNe i body = true)
    (hs : idxNe s body = true) (hout : (outFactors i body).2 = .num 1) (hin : (outFactors i body).1 ≠ .num 1) (ρ : String → K) (m : ℤ)
    (hm : ρ s = m) (hlo : lo ≤ m + 1) (hlo' : lo ≤ m + c + 1)
    (hne : ∀ k ∈ Icc (m + c + 1) m, eval I (update ρ i (k : K)) body ≠ 0) :
    eval I ρ (prodShift i lo s c upper body) = ∏ k ∈ Icc lo (m + c), eval I (update ρ i (k : K)) body := by
  have h1 : ∀ ρ : String → K, eval I ρ (outFactors i body).1 = eval I ρ body := fun ρ => by
    have := (outFactors_spec I i body).1 ρ
    rw [hout] at this
    simpa [eval] using this
  have hp : eval I ρ (mulE (powE (outFactors i body).2 (addE (subE upper (.num (lo : ℚ))) (.num 1)))
      (.binder .prod (.sym i) (.num (lo : ℚ)) (.sym s) (outFactors i body).1)) = ∏ k ∈ Icc lo m, eval I (update ρ i (k : K)) body := by
    rw [eval_mulE, hout, eval_powE]
    simp only [eval, bindIdx, Rat.cast_one, I.one_pw, one_mul, Rat.cast_intCast, hm, hI.prod, h1]
  unfold prodShift
  rw [if_neg hin]
  dsimp only
  split_ifs with hc
  · have hc : 0 < c := by exact_mod_cast hc
    rw [loopUp_prod I (fun j => substitute (.sym i) (addE (.sym s) (.num j)) body), hp, prod_Icc_split _ hlo (by omega : m ≤ m + c)]
    congr 1
    rw [prod_Icc_range (fun k : ℤ => eval I (update ρ i (k : K)) body)]
    rw [show (⌊(c : ℚ) - 1⌋ + 1).toNat = (m + c - (m + 1) + 1).toNat by
      rw [show (c : ℚ) - 1 = ((c - 1 : ℤ) : ℚ) by push_cast; ring, Int.floor_intCast]; congr 1; ring]
    refine Finset.prod_congr rfl fun k _ => ?_
    rw [eval_substShift I _ hi hs, hm]
    congr 2
    push_cast
    ring
  · have hc : c ≤ 0 := by
      by_contra h
      exact hc (by exact_mod_cast (not_le.mp h))
    rw [loopUp_prod I (fun j => powE (substitute (.sym i) (addE (.sym s) (.num j)) body) (.num (-1))), hp,
      prod_Icc_split _ hlo' (by omega : m + c ≤ m), mul_assoc]
    rw [prod_Icc_range (fun k : ℤ => eval I (update ρ i (k : K)) body) (m + c + 1) m]
    rw [show (⌊(0 : ℚ) - (c + 1)⌋ + 1).toNat = (m - (m + c + 1) + 1).toNat by
      rw [show (0 : ℚ) - (c + 1) = ((- c - 1 : ℤ) : ℚ) by push_cast; ring, Int.floor_intCast]; congr 1; ring]
    rw [← Finset.prod_mul_distrib]
    conv_rhs => rw [← mul_one (∏ k ∈ Icc lo (m + c), eval I (update ρ i (k : K)) body)]
    congr 1
    refine Finset.prod_eq_one fun k hk => ?_
    rw [Finset.mem_range] at hk
    rw [eval_powE, eval_substShift I _ hi hs, hm]
    have e : ((m : K) + (((c : ℚ) + 1 + (k : ℕ) : ℚ) : K)) = ((m + c + 1 + (k : ℕ) : ℤ) : K) := by push_cast; ring
    rw [e]
    simp only [eval]
    rw [show (((-1 : ℚ)) : K) = ((-1 : ℤ) : K) by push_cast; rfl, I.pw_int, zpow_neg_one]
    refine mul_inv_cancel₀ (hne _ ?_)
    rw [Finset.mem_Icc]
    omega

/-- The upper limit is a symbol plus an integer, in either order. -/
def IsShift (upper : Expr) (s : String) (c : ℤ) : Prop :=
  upper = .add [.sym s, .num c] ∨ upper = .add [.num c, .sym s]

/-- **C24, products with a symbolic upper limit** (partial): the rules keep the value of the product if the value `m` of the limit is
at least `lo - 1` and, when the limit is `s + c`, no factor is free of the index, the value of `s` is also at least `lo - 1` and the
factors at `m + 1, ..., s` are not zero. -/
theorem C24_prod_symbolic_partial (hI : StdBind I) (i : String) (lo : ℤ) {upper body r : Expr} (hu : ∀ q, upper ≠ .num q)
    (h : prodEval i (.num lo) upper body = some r) (ρ : String → K) (m : ℤ) (hm : eval I ρ upper = m) (hlo : lo ≤ m + 1)
    (hshift : ∀ s c, IsShift upper s c → (outFactors i body).2 = .num 1 ∧ (outFactors i body).1 ≠ .num 1 ∧
      idxNe i body = true ∧ idxNe s body = true ∧ lo ≤ m - c + 1 ∧ ∀ k ∈ Icc (m + 1) (m - c), eval I (update ρ i (k : K)) body ≠ 0) :
    eval I ρ r = ∏ k ∈ Icc lo m, eval I (update ρ i (k : K)) body := by
  have key : ∀ (s : String) (q : ℚ), q.den = 1 → (upper = .add [.sym s, .num q] ∨ upper = .add [.num q, .sym s]) →
      eval I ρ (prodShift i lo s q upper body) = ∏ k ∈ Icc lo m, eval I (update ρ i (k : K)) body := by
    intro s q hq hup
    have hqc : ((q.num : ℤ) : ℚ) = q := (Rat.den_eq_one_iff q).mp hq
    obtain ⟨h1, h2, h3, h4, h5, h6⟩ := hshift s q.num (by rw [IsShift, hqc]; exact hup)
    have hs : ρ s = ((m - q.num : ℤ) : K) := by
      have : ρ s + (q : K) = m := by
        rw [← hm]; rcases hup with rfl | rfl <;> simp [eval, add_comm]
      rw [← hqc] at this
      push_cast at this ⊢
      linear_combination this
    have := prodShift_sound I hI i lo q.num s (upper := upper) h3 h4 h1 h2 ρ (m - q.num) hs h5 (by omega)
      (by rw [show m - q.num + q.num + 1 = m + 1 by ring]; exact h6)
    rw [hqc, show m - q.num + q.num = m by ring] at this
    exact this
  unfold prodEval at h
  dsimp only at h
  split at h
  · exact (hu _ rfl).elim
  obtain rfl := Option.some.inj h
  unfold prodSymbolic
  split_ifs with hb
  · rw [hb]; simp [eval]
  · split
    · rename_i c s _
      split_ifs with hc
      · exact key s c hc (.inr rfl)
      · exact prodOut_sound I hI i lo _ body ρ m hm hlo
    · rename_i s c _
      split_ifs with hc
      · exact key s c hc (.inl rfl)
      · exact prodOut_sound I hI i lo _ body ρ m hm hlo
    · exact prodOut_sound I hI i lo _ body ρ m hm hlo

end

/-- The factors of `2 k`. -/
theorem outFactors_2k : outFactors "k" (.mul [.num 2, .sym "k"]) = (.sym "k", .num 2) := by
  simp [outFactors, has, mulE]

/-- **C24, products, refuted in general**: `prod(k, 1, n + 1, 2 k)` is evaluated to an expression with the value `16` at `n = 1`
instead of `2 * 4 = 8`: the factor at `n + 1` is multiplied as a whole although its constant part is already in the power. -/
theorem C24_prod_refuted : ∃ r, prodEval "k" (.num 1) (.add [.sym "n", .num 1]) (.mul [.num 2, .sym "k"]) = some r ∧
    (∀ ρ : String → ℝ, ρ "n" = 1 → eval (realInterp 0) ρ r = 16) ∧ ∏ k ∈ Icc (1 : ℤ) 2, (2 * (k : ℝ)) = 8 := by
  refine ⟨prodShift "k" 1 "n" 1 (.add [.sym "n", .num 1]) (.mul [.num 2, .sym "k"]), ?_, fun ρ hρ => ?_, ?_⟩
  · simp [prodEval, prodSymbolic]
  · unfold prodShift
    rw [if_pos (by norm_num), loopUp_prod (realInterp 0) (fun j => substitute (.sym "k") (addE (.sym "n") (.num j)) (.mul [.num 2, .sym "k"])),
      outFactors_2k]
    have h1 : (⌊(1 : ℚ) - 1⌋ + 1).toNat = 1 := by simp
    rw [h1, Finset.prod_range_one, eval_substShift (realInterp 0) _ (by simp [idxNe]) (by simp [idxNe])]
    rw [if_neg (by simp), eval_mulE, eval_powE]
    have h2 := eval_upper (realInterp 0) 1 2 (.add [.sym "n", .num 1]) ρ (by simp [eval, hρ]; norm_num)
    rw [show (((1 : ℤ) : ℚ)) = 1 by norm_num] at h2
    rw [h2, (realInterp 0).pw_int]
    have h3 := (stdBind_real 0).prod (fun v => v) 1 1
    simp only [eval, bindIdx, update_self, hρ]
    have h4 : (realInterp 0).bind .prod ((1 : ℚ) : ℝ) 1 (fun v => v) = 1 := by
      rw [show (((1 : ℚ)) : ℝ) = ((1 : ℤ) : ℝ) by norm_num, show (1 : ℝ) = ((1 : ℤ) : ℝ) by norm_num, h3]
      simp
    rw [h4]
    norm_num [eval]
  · rw [show (Icc (1 : ℤ) 2) = {1, 2} by decide, Finset.prod_insert (by decide), Finset.prod_singleton]
    norm_num

/-- Symbolic limits to which the partial theorems apply: `sum(k, 1, n, 3 k)` and `prod(k, 1, n + 2, k)` at `n = 4`. -/
theorem C24_symbolic_nonvacuous (ρ : String → ℝ) (hρ : ρ "n" = 4) :
    (∃ r, sumEval "k" (.num (1 : ℤ)) (.sym "n") (.mul [.num 3, .sym "k"]) = some r ∧ eval (realInterp 0) ρ r = 30) ∧
    ∃ r, prodEval "k" (.num (1 : ℤ)) (.add [.sym "n", .num (2 : ℤ)]) (.sym "k") = some r ∧ eval (realInterp 0) ρ r = 720 := by
  have hof : outFactors "k" (.sym "k") = (.sym "k", .num 1) := by simp [outFactors, has, mulE]
  constructor
  · obtain ⟨r, hr⟩ : ∃ r, sumEval "k" (.num (1 : ℤ)) (.sym "n") (.mul [.num 3, .sym "k"]) = some r := by
      simp [sumEval, outFactors, has, mulE]
    refine ⟨r, hr, ?_⟩
    rw [C24_sum_symbolic_partial (realInterp 0) (stdBind_real 0) "k" 1 (by simp) hr ρ 4 (by simp [eval, hρ]) (by norm_num)]
    rw [show (Icc (1 : ℤ) 4) = {1, 2, 3, 4} by decide]
    simp [eval]
    norm_num
  · refine ⟨_, rfl, ?_⟩
    rw [C24_prod_symbolic_partial (realInterp 0) (stdBind_real 0) "k" 1 (upper := .add [.sym "n", .num (2 : ℤ)]) (body := .sym "k") (by simp) rfl ρ 6
      (by simp [eval, hρ]; norm_num) (by norm_num) ?_]
    · rw [show (Icc (1 : ℤ) 6) = {1, 2, 3, 4, 5, 6} by decide]
      simp [eval]
      norm_num
    · rintro s c (h | h)
      · simp at h
        obtain ⟨rfl, h⟩ := h
        obtain rfl : c = 2 := by
          have h' : ((2 : ℤ) : ℚ) = (c : ℚ) := h
          exact (Int.cast_injective h').symm
        rw [hof]
        refine ⟨rfl, by simp, by simp [idxNe], by simp [idxNe], by norm_num, fun k hk => ?_⟩
        rw [Finset.mem_Icc] at hk
        omega
      · simp at h

/-! ### `max` and `min` -/

/-- A floating-point approximation with a relative error of at most one half. -/
def FpOk (fp : ℚ → ℚ) : Prop := ∀ q, |fp q - q| ≤ |q| / 2

/-- A canonicalisation that keeps the value for all non-negative values of the symbols. -/
def NormOk (ξ : ℝ → ℝ) (norm : Expr → Expr) : Prop :=
  ∀ e (ρ : String → ℝ), (∀ s, 0 ≤ ρ s) → eval (realInterp ξ) ρ (norm e) = eval (realInterp ξ) ρ e

theorem isGreater_pos {fp : ℚ → ℚ} (hfp : FpOk fp) {d : ℚ} (h : isGreater fp d = true) : 0 < d := by
  simp [isGreater] at h
  obtain ⟨h0, h1, -⟩ := h
  have h2 := abs_le.mp (hfp d)
  by_contra hd
  rw [abs_of_nonpos (not_lt.mp hd)] at h2
  have : d < 0 := lt_of_le_of_ne (not_lt.mp hd) h0
  linarith [h2.2]

theorem isGreater_neg {fp : ℚ → ℚ} (hfp : FpOk fp) {d : ℚ} (h : isGreater fp d = false) : d ≤ 2 / 10 ^ 6 := by
  by_contra hd
  rw [not_le] at hd
  have hd0 : 0 < d := lt_trans (by norm_num) hd
  have h2 := abs_le.mp (hfp d)
  rw [abs_of_pos hd0] at h2
  have : isGreater fp d = true := by
    simp only [isGreater, Bool.and_eq_true, decide_eq_true_eq, ne_eq]
    refine ⟨hd0.ne', ?_, ?_⟩
    · linarith [h2.1]
    · have := h2.1
      norm_num at hd ⊢
      linarith
  rw [this] at h
  exact absurd h (by simp)

theorem max_min_nonnum {fp : ℚ → ℚ} {norm : Expr → Expr} {a b : Expr} (h : ∀ d, norm (subE a b) ≠ .num d) :
    (maxEval fp norm a b = if preservesNonneg (norm (subE a b)) then a else
      if preservesNonneg (norm (negE (norm (subE a b)))) then b else .fn .max [a, b]) ∧
    minEval fp norm a b = if preservesNonneg (norm (subE a b)) then b else
      if preservesNonneg (norm (negE (norm (subE a b)))) then a else .fn .min [a, b] := by
  unfold maxEval minEval
  cases hd : norm (subE a b)
  · exact absurd hd (h _)
  all_goals exact ⟨rfl, rfl⟩

section
variable (ξ : ℝ → ℝ) {fp : ℚ → ℚ} {norm : Expr → Expr} (hfp : FpOk fp) (hn : NormOk ξ norm) (a b : Expr) (ρ : String → ℝ)
  (hρ : ∀ s, 0 ≤ ρ s)
include hfp hn hρ

/-- The cases of the two functions: `P` holds of the larger and the smaller argument as chosen. -/
theorem max_min_cases : (∃ d : ℚ, norm (subE a b) = .num d ∧ eval (realInterp ξ) ρ a - eval (realInterp ξ) ρ b = d ∧
      ((0 < d ∧ maxEval fp norm a b = a ∧ minEval fp norm a b = b) ∨ (d ≤ 2 / 10 ^ 6 ∧ maxEval fp norm a b = b ∧ minEval fp norm a b = a))) ∨
    (eval (realInterp ξ) ρ b ≤ eval (realInterp ξ) ρ a ∧ maxEval fp norm a b = a ∧ minEval fp norm a b = b) ∨
    (eval (realInterp ξ) ρ a ≤ eval (realInterp ξ) ρ b ∧ maxEval fp norm a b = b ∧ minEval fp norm a b = a) ∨
    (maxEval fp norm a b = .fn .max [a, b] ∧ minEval fp norm a b = .fn .min [a, b]) := by
  have hv : eval (realInterp ξ) ρ (norm (subE a b)) = eval (realInterp ξ) ρ a - eval (realInterp ξ) ρ b := by
    rw [hn _ _ hρ, eval_subE]
  by_cases hnum : ∃ d, norm (subE a b) = .num d
  · obtain ⟨d, hd⟩ := hnum
    left
    rw [hd] at hv
    refine ⟨d, hd, by rw [← hv]; simp [eval], ?_⟩
    simp only [maxEval, minEval, hd]
    cases hg : isGreater fp d
    · exact .inr ⟨isGreater_neg hfp hg, by simp, by simp⟩
    · exact .inl ⟨isGreater_pos hfp hg, by simp, by simp⟩
  · right
    obtain ⟨e1, e2⟩ := max_min_nonnum (fp := fp) (fun d hd => hnum ⟨d, hd⟩)
    rw [e1, e2]
    cases h1 : preservesNonneg (norm (subE a b))
    · cases h2 : preservesNonneg (norm (negE (norm (subE a b))))
      · exact .inr (.inr ⟨by simp, by simp⟩)
      · refine .inr (.inl ⟨?_, by simp, by simp⟩)
        have := C25_preservesNonneg_sound ξ _ h2 ρ hρ
        rw [hn _ _ hρ, eval_negE, hv] at this
        linarith
    · refine .inl ⟨?_, by simp, by simp⟩
      have := C25_preservesNonneg_sound ξ _ h1 ρ hρ
      rw [hv] at this
      linarith

/-- **C24, max and min** (partial: unless the difference is a number in `(0, 2/10^6]`): for non-negative values of the symbols the
rules keep the value. -/
theorem C24_max_min_partial (hd : ∀ d, norm (subE a b) = .num d → d ≤ 0 ∨ 2 / 10 ^ 6 < d) :
    eval (realInterp ξ) ρ (maxEval fp norm a b) = max (eval (realInterp ξ) ρ a) (eval (realInterp ξ) ρ b) ∧
    eval (realInterp ξ) ρ (minEval fp norm a b) = min (eval (realInterp ξ) ρ a) (eval (realInterp ξ) ρ b) := by
  rcases max_min_cases ξ hfp hn a b ρ hρ with ⟨d, h1, h2, ⟨h3, h4, h5⟩ | ⟨h3, h4, h5⟩⟩ | ⟨h3, h4, h5⟩ | ⟨h3, h4, h5⟩ | ⟨h4, h5⟩
  · have : (0 : ℝ) < d := by exact_mod_cast h3
    rw [h4, h5, max_eq_left (by linarith), min_eq_right (by linarith)]
    exact ⟨rfl, rfl⟩
  · have h6 : d ≤ 0 := by
      rcases hd d h1 with h | h
      · exact h
      · linarith
    have : (d : ℝ) ≤ 0 := by exact_mod_cast h6
    rw [h4, h5, max_eq_right (by linarith), min_eq_left (by linarith)]
    exact ⟨rfl, rfl⟩
  · rw [h4, h5, max_eq_left h3, min_eq_right h3]
    exact ⟨rfl, rfl⟩
  · rw [h4, h5, max_eq_right h3, min_eq_left h3]
    exact ⟨rfl, rfl⟩
  · rw [h4, h5]
    simp [eval, realInterp, realFn]

/-- **C24, max and min**: in all cases the answer is at most `2/10^6` away from the larger (smaller) value. -/
theorem C24_max_min_close_partial :
    |eval (realInterp ξ) ρ (maxEval fp norm a b) - max (eval (realInterp ξ) ρ a) (eval (realInterp ξ) ρ b)| ≤ 2 / 10 ^ 6 ∧
    |eval (realInterp ξ) ρ (minEval fp norm a b) - min (eval (realInterp ξ) ρ a) (eval (realInterp ξ) ρ b)| ≤ 2 / 10 ^ 6 := by
  by_cases hd : ∀ d, norm (subE a b) = .num d → d ≤ 0 ∨ 2 / 10 ^ 6 < d
  · obtain ⟨h1, h2⟩ := C24_max_min_partial ξ hfp hn a b ρ hρ hd
    rw [h1, h2, sub_self, sub_self, abs_zero]
    norm_num
  · push Not at hd
    obtain ⟨d, h1, h2, h3⟩ := hd
    have hv : eval (realInterp ξ) ρ a - eval (realInterp ξ) ρ b = d := by
      rw [← eval_subE, ← hn _ _ hρ, h1]; simp [eval]
    have h2 : (0 : ℝ) < d := by exact_mod_cast h2
    have h3 : (d : ℝ) ≤ 2 / 10 ^ 6 := by
      have : ((d : ℚ) : ℝ) ≤ ((2 / 10 ^ 6 : ℚ) : ℝ) := by exact_mod_cast h3
      push_cast at this
      exact this
    rw [max_eq_left (by linarith), min_eq_right (by linarith)]
    rcases max_min_cases ξ hfp hn a b ρ hρ with ⟨d', _, _, ⟨_, h4, h5⟩ | ⟨_, h4, h5⟩⟩ | ⟨_, h4, h5⟩ | ⟨h6, _, _⟩ | ⟨h4, h5⟩
    · rw [h4, h5]; norm_num
    · rw [h4, h5]
      constructor <;> rw [abs_le] <;> constructor <;> linarith
    · rw [h4, h5]; norm_num
    · linarith
    · rw [h4, h5]
      simp only [eval, realInterp, realFn, List.map_cons, List.map_nil]
      constructor
      · rw [show max _ _ = _ from max_eq_left (by simp only [realInterp] at hv; linarith)]; norm_num
      · rw [show min _ _ = _ from min_eq_right (by simp only [realInterp] at hv; linarith)]; norm_num

end

/-- **C24, max and min, refuted in general**: `max(10^(-7), 0)` is evaluated to `0` and `min(10^(-7), 0)` to `10^(-7)`. -/
theorem C24_max_min_refuted {fp : ℚ → ℚ} (hfp : FpOk fp) :
    maxEval fp id (.num (1 / 10 ^ 7)) (.num 0) = .num 0 ∧ minEval fp id (.num (1 / 10 ^ 7)) (.num 0) = .num (1 / 10 ^ 7) := by
  have h2 := abs_le.mp (hfp (1 / 10 ^ 7))
  rw [abs_of_pos (by norm_num)] at h2
  have hg : isGreater fp (1 / 10 ^ 7) = false := by
    have : ¬ (1 / 10 ^ 6 < fp (1 / 10 ^ 7)) := by
      have := h2.2
      norm_num at this ⊢
      linarith
    simp only [isGreater, this]
    simp
  have hs : subE (.num (1 / 10 ^ 7)) (.num 0) = .num (1 / 10 ^ 7) := by simp [subE, negE, mulE, addE]
  constructor
  · simp only [maxEval, id, hs, hg]; simp
  · simp only [minEval, id, hs, hg]; simp

/-- The identity is an admissible approximation and canonicalisation; `max(2 n + 1, 2)` at `n = 3`. -/
theorem C24_max_min_nonvacuous (ρ : String → ℝ) (hρ : ∀ s, 0 ≤ ρ s) : FpOk id ∧ NormOk 0 id ∧
    eval (realInterp 0) ρ (maxEval id id (.num 5) (.num 2)) = 5 ∧ eval (realInterp 0) ρ (minEval id id (.num 5) (.num 2)) = 2 := by
  have h1 : FpOk id := fun q => by simp; positivity
  have h2 : NormOk 0 id := fun e ρ _ => rfl
  refine ⟨h1, h2, ?_⟩
  obtain ⟨h3, h4⟩ := C24_max_min_partial 0 h1 h2 (.num 5) (.num 2) ρ hρ (by
    intro d hd
    simp [subE, negE, mulE, addE] at hd
    right
    rw [← hd]; norm_num)
  rw [h3, h4]
  simp [eval]
  norm_num

end Purrs.EvalRules
