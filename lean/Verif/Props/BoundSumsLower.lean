import Verif.Props.BoundSums
import Verif.Model.Functional

/-!
# C120: the lower bound for `c n^k` when the coefficient of the equation exceeds `b^k`

The sharper bounds are not applicable; the closed form of `G` is used, with `log(n)/log(b) - 1` for its argument.
-/

set_option linter.unusedSectionVars false

namespace Purrs.Bounds

open Purrs.WeightedAvg Finset
open Function (update update_of_ne update_self)

/-- `e` is written `c B^n`. -/
inductive MonoExp (n : String) (c B : ℚ) : Expr → Prop where
  | one : c = 1 → MonoExp n c B (.pow (.num B) (.sym n))
  | cb : MonoExp n c B (.mul [.num c, .pow (.num B) (.sym n)])
  | bc : MonoExp n c B (.mul [.pow (.num B) (.sym n), .num c])

/-- What is assumed of the operations that are not modelled, for the term `s` written `c n^k`: `s` with `b^n` for `n` is expanded
to `c (b^k)^n`, the polynomial `c` has the coefficient `c`, and the simplification of the result does not change its value. -/
structure ExpandMono (ξ : ℝ → ℝ) (ρ : String → ℝ) (n : String) (O : SumOps) (b : ℕ) (s : Expr) (c : ℚ) (k : ℕ) : Prop where
  new : O.k ≠ n
  expand : MonoExp n c ((b : ℚ) ^ k) (O.expand (sumArg n .lower s b))
  coeffs : O.coeffs (.num c) = [.num c]
  simp : ∀ r (v : ℝ), eval (realInterp ξ) (update ρ n v) (O.simp r) = eval (realInterp ξ) (update ρ n v) r
  nb : ∀ r, hasSumOrProd r = false → hasSumOrProd (O.simp r) = false

section
variable {ξ : ℝ → ℝ} {ρ : String → ℝ} {n : String} {O : SumOps} {s : Expr} {a : ℚ} {b : ℕ} {c B : ℚ}
  {cmp : Expr → Expr → Cmp} {S : Sums} {e g : Expr} {t : Ty}

theorem monoExp_dec {e : Expr} (h : MonoExp n c B e) : expPolyDecomposition n e = [(.num B, .num c, .num 0)] := by
  have hiso : ∀ c : ℚ, isolatePolynomialPart n (.num c) = (.num c, .num 0) := by
    intro c; simp [isolatePolynomialPart, isPolynomial, isScalarRep]
  cases h with
  | one hc => subst hc; simp [expPolyDecomposition, epSummand, epBase, epFactor, bumpLast, isScalarRep, hiso, addE]
  | cb => simp [expPolyDecomposition, epSummand, epSplit, epBase, epFactor, bumpLast, isScalarRep, hiso, addE, mulE]
  | bc => simp [expPolyDecomposition, epSummand, epSplit, epBase, epFactor, bumpLast, isScalarRep, hiso, addE, mulE]

/-- The closed form of the geometric sum, with a real argument. -/
theorem geometric_real (hk : O.k ≠ n) {α : ℚ} (hα : α ≠ 1) (v : ℝ) :
    eval (realInterp ξ) (update ρ n v) (sumPolyTimesExponentials O.k n [.num c] (.num α)) =
      (1 - (α : ℝ) ^ (v + 1)) / (1 - α) * c := by
  have hα' : (1 : ℝ) - α ≠ 0 := by
    rw [sub_ne_zero]; intro h; exact hα (by exact_mod_cast h.symm)
  unfold sumPolyTimesExponentials
  rw [if_neg (by simpa using hα)]
  simp only [polyDegree, List.length_cons, List.length_nil, polyDec, polyDecLoop, polyCoeff, sumFallingProdTimesExp, fallingProduct]
  simp only [zero_add, Nat.sub_self, List.range_succ, List.range_zero, List.nil_append, List.foldl_cons, List.foldl_nil, List.getD_cons_zero]
  rw [C18_substitute_binderfree]
  · simp only [eval_addE, eval_mulE, eval_subE, eval_powE]
    simp only [eval, update_self, update_of_ne (Ne.symm hk)]
    have e1 : (realInterp ξ).pw ((1 : ℚ) - (α : ℝ)) ((((0 : ℕ) : ℚ) - ((0 : ℕ) : ℚ) - 1 : ℚ) : ℝ) = (1 - (α : ℝ))⁻¹ := by
      simp [realInterp, Real.rpow_neg_one]
    have e2 : (realInterp ξ).pw ((1 : ℚ) - (α : ℝ)) ((-((0 : ℕ) : ℚ) - 1 : ℚ) : ℝ) = (1 - (α : ℝ))⁻¹ := by
      simp [realInterp, Real.rpow_neg_one]
    have e3 : (realInterp ξ).pw (α : ℝ) ((((0 : ℕ) : ℚ)) : ℝ) = 1 := by simp [realInterp]
    have e4 : (realInterp ξ).pw (α : ℝ) (v + ((1 : ℚ) : ℝ) - ((((0 : ℕ) : ℚ)) : ℝ)) = (α : ℝ) ^ (v + 1) := by simp [realInterp]
    rw [e1, e2, e3, e4]
    simp
    left
    field_simp
  · refine nb_addE (nb_num _) (nb_mulE (nb_mulE (nb_subE ?_ (nb_mulE (nb_mulE (nb_mulE (nb_num _) (nb_num _)) ?_) ?_)) (nb_mulE (nb_num _) ?_)) (nb_num _))
    · exact nb_powE (nb_subE (nb_num _) (nb_sym _)) (nb_num _)
    · exact nb_powE (nb_sym _) (nb_subE (nb_addE (nb_sym _) (nb_num _)) (nb_num _))
    · exact nb_powE (nb_subE (nb_num _) (nb_sym _)) (nb_num _)
    · exact nb_powE (nb_sym _) (nb_num _)

theorem lower_value (ha : 0 < a) {k : ℕ} (hB : (b : ℚ) ^ k < a) (hc : c ≠ 0) (h : ExpandMono ξ ρ n O b s c k) :
    hasSumOrProd (trySum n O .lower s a b) = false ∧ ∀ v : ℝ, eval (realInterp ξ) (update ρ n v) (trySum n O .lower s a b) =
      ((1 - ((((b : ℚ) ^ k / a : ℚ)) : ℝ) ^ (v + 1)) / (1 - (((b : ℚ) ^ k / a : ℚ) : ℝ)) * c - c) * (a : ℝ) ^ v := by
  have hα : (b : ℚ) ^ k / a ≠ 1 := by
    rw [Ne, div_eq_one_iff_eq ha.ne']; exact hB.ne
  have hdiv : divE (.num ((b : ℚ) ^ k)) (.num a) = .num ((b : ℚ) ^ k / a) := by
    simp [divE, powE, mulE, div_eq_mul_inv]
  have hcoef : Coeffs O.k [.num c] := by
    simp [Coeffs, isScalarRep, hasSumOrProd]
  have hr : trySum n O .lower s a b = O.simp (mulE (sumTerm n O .lower a (.num ((b : ℚ) ^ k), .num c, .num 0) (.num 0)) (powE (.num a) (.sym n))) := by
    unfold trySum boundSum
    simp only
    rw [monoExp_dec h.expand]
    simp [hc]
  rw [hr]
  have hsum : ∀ v : ℝ, eval (realInterp ξ) (update ρ n v) (sumTerm n O .lower a (.num ((b : ℚ) ^ k), .num c, .num 0) (.num 0)) =
      (1 - ((((b : ℚ) ^ k / a : ℚ)) : ℝ) ^ (v + 1)) / (1 - (((b : ℚ) ^ k / a : ℚ) : ℝ)) * c - c := by
    intro v
    unfold sumTerm
    simp only
    rw [eval_subE, eval_addE, h.coeffs, hdiv, geometric_real h.new hα]
    simp [substitute, eval]
  constructor
  · refine h.nb _ (nb_mulE ?_ (nb_powE (nb_num _) (nb_sym _)))
    unfold sumTerm
    simp only
    rw [h.coeffs, hdiv]
    exact nb_subE (nb_addE (nb_num _) (SimplifySum.nb_sumPTE hcoef (nb_num _))) (by simp [substitute, hasSumOrProd])
  · intro v
    rw [h.simp, eval_mulE, hsum, eval_powE]
    simp [eval, realInterp]

/-- `a^v - B^v` is increasing. -/
theorem diff_mono {a B : ℝ} (hB : 1 ≤ B) (hBa : B ≤ a) {u v : ℝ} (hu : 0 ≤ u) (huv : u ≤ v) : a ^ u - B ^ u ≤ a ^ v - B ^ v := by
  have ha : 0 < a := by linarith
  have hB0 : 0 < B := by linarith
  have e1 : a ^ v = a ^ u * a ^ (v - u) := by rw [← Real.rpow_add ha]; ring_nf
  have e2 : B ^ v = B ^ u * B ^ (v - u) := by rw [← Real.rpow_add hB0]; ring_nf
  have h1 : B ^ u ≤ a ^ u := Real.rpow_le_rpow hB0.le hBa hu
  have h2 : B ^ (v - u) ≤ a ^ (v - u) := Real.rpow_le_rpow hB0.le hBa (by linarith)
  have h3 : 1 ≤ B ^ (v - u) := Real.one_le_rpow hB (by linarith)
  have h4 : 0 < B ^ u := Real.rpow_pos_of_pos hB0 _
  have h5 : B ^ u * (B ^ (v - u) - 1) ≤ a ^ u * (a ^ (v - u) - 1) := mul_le_mul h1 (by linarith) (by linarith) (by linarith)
  rw [e1, e2]
  linarith

/-- What the terms `c n^k` add to the solution is at least a geometric sum. -/
theorem unroll_geometric {a : ℝ} (ha : 0 < a) (hb : 2 ≤ b) {c : ℝ} (hc : 0 ≤ c) (k N : ℕ) (hN : 1 ≤ N) (hne : a ≠ (b : ℝ) ^ k) :
    c * ((b : ℝ) ^ k * (a ^ Nat.log b N - ((b : ℝ) ^ k) ^ Nat.log b N) / (a - (b : ℝ) ^ k)) ≤
      unroll a b (fun m => c * (m : ℝ) ^ k) N := by
  set L := Nat.log b N with hL
  have hg : (b : ℝ) ^ k * (a ^ L - ((b : ℝ) ^ k) ^ L) / (a - (b : ℝ) ^ k) = ∑ j ∈ range L, a ^ j * ((b : ℝ) ^ k) ^ (L - j) := by
    rw [div_eq_iff (sub_ne_zero.mpr hne)]
    have : ∀ j ∈ range L, a ^ j * ((b : ℝ) ^ k) ^ (L - j) = (b : ℝ) ^ k * (a ^ j * ((b : ℝ) ^ k) ^ (L - 1 - j)) := by
      intro j hj
      have := mem_range.1 hj
      rw [show L - j = (L - 1 - j) + 1 by omega, pow_succ]
      ring
    rw [sum_congr rfl this, ← mul_sum, mul_assoc, Commute.geom_sum₂_mul (Commute.all _ _)]
  rw [hg, mul_sum]
  unfold unroll
  refine sum_le_sum fun j hj => ?_
  have hj := mem_range.1 hj
  have h1 : b ^ (L - j) ≤ N / b ^ j := by
    rw [Nat.le_div_iff_mul_le (by positivity), ← pow_add, Nat.sub_add_cancel hj.le]
    exact Nat.pow_log_le_self b (by omega)
  have h2 : ((b : ℝ) ^ k) ^ (L - j) ≤ ((N / b ^ j : ℕ) : ℝ) ^ k := by
    rw [← pow_mul, mul_comm, pow_mul]
    gcongr
    exact_mod_cast h1
  calc c * (a ^ j * ((b : ℝ) ^ k) ^ (L - j)) = a ^ j * (c * ((b : ℝ) ^ k) ^ (L - j)) := by ring
    _ ≤ _ := mul_le_mul_of_nonneg_left (mul_le_mul_of_nonneg_left h2 hc) (by positivity)

theorem lower_piece (ha : 0 < a) (hb : 2 ≤ b) {k : ℕ} (hB : (b : ℚ) ^ k < a) (hc : 0 < c) (h : ExpandMono ξ ρ n O b s c k)
    {mono : ℚ → Expr → Bool → Bool} :
    Piece ξ ρ n a b (fun _ => True) .lower (fun m => (c : ℝ) * (m : ℝ) ^ k) (sumPart n (sumsOf n O mono) .lower a b s) := by
  intro N hN _
  have ha' : (0 : ℝ) < a := by exact_mod_cast ha
  have hc' : (0 : ℝ) < c := by exact_mod_cast hc
  have hB' : (b : ℝ) ^ k < a := by exact_mod_cast hB
  have hb' : (2 : ℝ) ≤ b := by exact_mod_cast hb
  have hB1 : (1 : ℝ) ≤ (b : ℝ) ^ k := one_le_pow₀ (by linarith)
  have hN1 : 1 ≤ N := by omega
  obtain ⟨h1, h2⟩ := lower_value ha hB hc.ne' h
  set v : ℝ := lg b N - 1 with hv
  have hv0 : 0 ≤ v := by
    have h3 := q_le_lg hb hN1
    have : 1 ≤ Nat.log b N := Nat.log_pos (by omega) hN
    have : (1 : ℝ) ≤ Nat.log b N := by exact_mod_cast this
    linarith
  have hvL : v ≤ Nat.log b N := by
    have := lg_lt_q hb hN1
    linarith
  show _ ≤ _
  refine le_trans ?_ (unroll_geometric ha' hb hc'.le k N hN1 hB'.ne')
  have hval : val ξ ρ n (sumPart n (sumsOf n O mono) .lower a b s) N =
      c * ((b : ℝ) ^ k * ((a : ℝ) ^ v - ((b : ℝ) ^ k) ^ v) / (a - (b : ℝ) ^ k)) := by
    unfold val sumPart sumsOf
    simp only
    rw [C18_substitute_binderfree _ _ _ _ h1, eval_subE, ev_fracLog, ev_num, Function.update_idem, h2]
    have : lg b N - ((1 : ℚ) : ℝ) = v := by rw [hv]; norm_num
    rw [this]
    push_cast
    have hq : (0 : ℝ) < (b : ℝ) ^ k / a := by positivity
    rw [Real.rpow_add hq, Real.rpow_one, Real.div_rpow (by positivity) ha'.le]
    have hd : (a : ℝ) - (b : ℝ) ^ k ≠ 0 := by linarith
    have hd' : (1 : ℝ) - (b : ℝ) ^ k / a ≠ 0 := by
      rw [sub_ne_zero]; intro h0
      rw [eq_div_iff ha'.ne'] at h0; linarith
    have hav : (a : ℝ) ^ v ≠ 0 := (Real.rpow_pos_of_pos ha' _).ne'
    field_simp
    ring
  rw [hval]
  have := diff_mono hB1 hB'.le hv0 hvL
  rw [Real.rpow_natCast, Real.rpow_natCast] at this
  have hd : (0 : ℝ) < (a : ℝ) - (b : ℝ) ^ k := by linarith
  gcongr

theorem powLower_none (hcmp : CmpOk ξ ρ n cmp) {k : ℕ} (hk : 1 ≤ k) (hb : 2 ≤ b) (hB : (b : ℚ) ^ k < a) :
    powLower n cmp a b k = none := by
  have c1 := cmp_pow (a := a) (k := (k : ℚ) - 1) (b := b) hcmp
  have c2 := cmp_pow (a := a) (k := k) (b := b) hcmp
  have hB' : (b : ℝ) ^ k < a := by exact_mod_cast hB
  have hb' : (2 : ℝ) ≤ b := by exact_mod_cast hb
  have e2 : (b : ℝ) ^ (((k : ℕ) : ℚ) : ℝ) = (b : ℝ) ^ k := by
    rw [show ((((k : ℕ) : ℚ)) : ℝ) = ((k : ℕ) : ℝ) by push_cast; rfl, Real.rpow_natCast]
  have e1 : (b : ℝ) ^ ((((k : ℕ) : ℚ) - 1 : ℚ) : ℝ) ≤ (b : ℝ) ^ k := by
    rw [← Real.rpow_natCast]
    exact Real.rpow_le_rpow_of_exponent_le (by linarith) (by push_cast; linarith)
  unfold powLower
  have hk' : (1 : ℚ) ≤ k := by exact_mod_cast hk
  simp only [if_neg (show ¬ (k : ℚ) = 0 by positivity), if_pos hk']
  rw [if_neg, if_neg, if_neg, if_neg]
  all_goals intro hh
  · rw [hh] at c2; simp only at c2; rw [e2] at c2; linarith
  · rw [hh] at c2; simp only at c2; rw [e2] at c2; linarith
  · rw [hh] at c1; simp only at c1; linarith
  · rw [hh] at c1; simp only at c1; linarith

theorem mono_none {k : ℚ} (hc0 : 0 < c) (h : Mono n c k e) (hF : powBound n cmp .lower a b k = none) (hd : cmp (.num c) (.num 0) = .greater)
     : sharperPoly n cmp .lower a b e = none := by
  unfold sharperPoly
  have hn := ne_negE hc0 h
  cases h with
  | const c => simp [isCoeff, scaled, hd, hF]
  | n => simpa [isCoeff] using hF
  | pow k hk => simpa [isCoeff, has, hk, hn] using hF
  | cn c =>
    simp only [isCoeff, if_neg hn]
    simp [polyMul, factorLoop, factorStep, asPow, isCoeff, mulE, scaled, hd, hF]
  | nc c =>
    simp only [isCoeff, if_neg hn]
    simp [polyMul, factorLoop, factorStep, asPow, isCoeff, mulE, scaled, hd, hF]
  | cpow c k hk =>
    simp only [isCoeff, if_neg hn]
    simp [polyMul, factorLoop, factorStep, asPow, isCoeff, mulE, scaled, hd, hF]
  | powc c k hk =>
    simp only [isCoeff, if_neg hn]
    simp [polyMul, factorLoop, factorStep, asPow, isCoeff, mulE, scaled, hd, hF]

/-! ## The whole inhomogeneous part -/

theorem part_pieces (hb : 2 ≤ b) {poly : Bool} (h0 : e ≠ .num 0)
    (he : ∀ x ∈ addends e, ∃ w, addendPart n cmp S poly 1 t a b x = some w ∧ Piece ξ ρ n a b (fun _ => True) t (val ξ ρ n x) w) :
    ∃ w, partBound n cmp S poly 1 t a b e = some w ∧ Piece ξ ρ n a b (fun _ => True) t (val ξ ρ n e) w := by
  unfold partBound
  split
  · rename_i l
    have hv : ∀ N, val ξ ρ n (.add l) N = (l.map fun f => val ξ ρ n f N).sum := by
      intro N; simp [Bounds.val, eval]
    suffices ∃ w, l.foldr (fun x acc => addO acc (addendPart n cmp S poly 1 t a b x)) (some (.num 0)) = some w ∧
        Piece ξ ρ n a b (fun _ => True) t (fun N => (l.map fun f => val ξ ρ n f N).sum) w by
      obtain ⟨w, h1, h2⟩ := this
      exact ⟨w, h1, Piece.congr hb (fun m _ => (hv m).symm) h2⟩
    clear hv h0
    simp only [addends] at he
    induction l with
    | nil => exact ⟨.num 0, rfl, by simpa using Piece.zero⟩
    | cons x l ih =>
      obtain ⟨u, hu, hu'⟩ := ih fun y hy => he y (List.mem_cons_of_mem _ hy)
      obtain ⟨v, hv, hv'⟩ := he x List.mem_cons_self
      refine ⟨addE u v, ?_, ?_⟩
      · simp only [List.foldr_cons]
        rw [hu, hv]; rfl
      · refine Piece.congr hb (fun m _ => ?_) (hu'.add hv')
        rw [List.map_cons, List.sum_cons]; ring
  · rename_i hne
    have : addends e = [e] := by cases e <;> simp_all [addends]
    obtain ⟨w, hw, hw'⟩ := he e (by rw [this]; simp)
    refine ⟨w, ?_, hw'⟩
    rw [← hw]
    unfold singlePart addendPart
    simp only [if_neg h0, powE_one_n, mulE_one]

theorem approx_pieces (ha : 0 < a) (hb : 2 ≤ b) {p : Expr} {c : ℕ} (hc1 : c ≤ 1) (hg0 : g ≠ .num 0)
    (hp : ∃ w, partBound n cmp S true 1 t a b p = some w ∧ Piece ξ ρ n a b (fun _ => True) t (val ξ ρ n p) w)
    (hpar : hasParameters n g = false) (hdec : ∀ m : ℕ, 1 ≤ m → val ξ ρ n g m = val ξ ρ n p m)
    (hsat : Satisfies ξ a b (val ξ ρ n g)) (hpos : ∀ i : ℕ, 1 ≤ i → i < b → 0 ≤ ξ i) :
    ∃ w, approximate n cmp S t (.num a) b g [(.num 1, p, .num 0)] c = some w ∧
      ∀ N : ℕ, b ≤ N → t.bounds (val ξ ρ n w N) (ξ N) := by
  have hb1 : ¬ (b : ℚ) < 1 := by
    have : (2 : ℚ) ≤ b := by exact_mod_cast hb
    linarith
  have init : ∀ N : ℕ, b ≤ N → _ := fun N hN =>
    initialTerm_sound (ξ := ξ) (ρ := ρ) (n := n) (t := t) ha hb hc1 (show 1 ≤ N by omega) hpos
  unfold approximate
  simp only
  rw [if_pos ⟨ha, hb1, by simp, hpar⟩, if_neg hg0]
  obtain ⟨u, hu, hu'⟩ := hp
  have hv : partBound n cmp S false 1 t a b (.num 0) = some (.num 0) := by
    simp [partBound, singlePart]
  refine ⟨addE (addE (.num 0) (addE u (.num 0))) (initialTerm n t c a b), ?_, fun N hN => ?_⟩
  · simp [nonHomogeneous, termBound, hu, hv, addO]
  · have h3 := init N hN
    have h4 := satisfies_unroll hb hsat N (by omega)
    have h5 := Piece.congr hb (fun m hm => (hdec m hm).symm) hu' N hN trivial
    rw [h4]
    have e : val ξ ρ n (addE (addE (.num 0) (addE u (.num 0))) (initialTerm n t c a b)) N =
        val ξ ρ n u N + val ξ ρ n (initialTerm n t c a b) N := by
      unfold val; rw [eval_addE, eval_addE, eval_addE, ev_num]; simp
    rw [e]
    cases t <;> simp only [Ty.bounds] at * <;> linarith

/-- The term `e`, written `c n^k`, is in the range of the sharper bound, or its exponent is a positive integer with `b^k < a`, it
passes the test of monotonicity and its sum is computed. -/
def Covered (ξ : ℝ → ℝ) (ρ : String → ℝ) (n : String) (O : SumOps) (mono : ℚ → Expr → Bool → Bool) (a : ℚ) (b : ℕ) (c k : ℚ) (e : Expr) : Prop :=
  InRange a b k ∨ ∃ K : ℕ, 1 ≤ K ∧ k = K ∧ (b : ℚ) ^ K < a ∧ mono 1 e true = true ∧ ExpandMono ξ ρ n O b e c K

/-- **C120.** Let the inhomogeneous part of `x(n) = a x(n/b) + g(n)` be a sum of terms `c n^k` with positive coefficients, every
term with `k = 0`, `b^(k-1) ≤ a ≤ b^k` or `b^k < a` (for `k` a positive integer; the other exponents as in `InRange`).  Then, if
the necessary numerical comparisons are decided, the lower bound is computed and, at every `n ≥ b`, it is not greater than the
value of any function that satisfies the equation and has non-negative initial conditions. -/
theorem C120_lower (n : String) (a : ℚ) (b : ℕ) (c : ℕ) (O : SumOps) (mono : ℚ → Expr → Bool → Bool) (cmp : Expr → Expr → Cmp)
    (ξ : ℝ → ℝ) (ρ : String → ℝ) (g : Expr) (hcmp : CmpOk ξ ρ n cmp) (ha : 0 < a) (hb : 2 ≤ b) (hc : c ≤ 1) (hg0 : g ≠ .num 0)
    (hp : ∀ e ∈ addends g, ∃ c k, Mono n c k e ∧ Decided cmp a b c k ∧ Covered ξ ρ n O mono a b c k e)
    (hpar : hasParameters n g = false)
    (hsat : Satisfies ξ a b (val ξ ρ n g)) (hpos : ∀ i : ℕ, 1 ≤ i → i < b → 0 ≤ ξ i) :
    ∃ w, approximate n cmp (sumsOf n O mono) .lower (.num a) b g [(.num 1, g, .num 0)] c = some w ∧
      ∀ N : ℕ, b ≤ N → val ξ ρ n w N ≤ ξ N := by
  refine approx_pieces ha hb hc hg0 (part_pieces hb hg0 fun e he => ?_) hpar (fun m _ => rfl) hsat hpos
  obtain ⟨c, k, hm, hd, hr⟩ := hp e he
  have hc0 := decided_pos hcmp hd
  rcases hr with hr | ⟨K, hK, rfl, hB, hmono, hx⟩
  · have hr' : LowerOk a b k := by
      rcases hr with h | ⟨h1, h2, h3⟩ | h
      · exact Or.inl h
      · exact Or.inr (Or.inl ⟨h1, h2⟩)
      · exact Or.inr (Or.inr h)
    obtain ⟨w, hw⟩ : ∃ w, sharper n cmp true .lower a b e = some w := by
      refine mono_some hc0 hm hd.1 (powLower_some hcmp hd.2 ?_)
      intro hk
      have hk' : (1 : ℝ) ≤ k := by exact_mod_cast hk
      rcases hr with h | ⟨h1, h2, h3⟩ | ⟨h1, _⟩
      · linarith
      · exact ⟨h2, h3⟩
      · linarith
    exact ⟨w, by simp [addendPart, hw], sharper_sound hcmp ha hb (mono_termOk hcmp hm hd fun _ => hr') hw⟩
  · have hs : sharper n cmp true .lower a b e = none := by
      unfold sharper
      rw [if_pos rfl]
      exact mono_none hc0 hm (powLower_none hcmp hK hb hB) hd.1
    refine ⟨addE (.num 0) (sumPart n (sumsOf n O mono) .lower a b e), ?_, ?_⟩
    · unfold addendPart
      simp only [hs, true_or, if_true, powE_one_n, mulE_one, Option.getD_none]
      rw [if_pos (by exact hmono)]
    · refine Piece.congr hb (fun m _ => ?_) (addZero_piece (lower_piece ha hb hB hc0 hx))
      rw [hm.val, show ((((K : ℕ) : ℚ)) : ℝ) = ((K : ℕ) : ℝ) by push_cast; rfl, Real.rpow_natCast]

end

/-! ## Examples -/

/-- Operations for the examples: nothing to expand or to simplify. -/
def exSum : SumOps := ⟨id, id, fun e => [e], "k", "h", fun _ _ => none⟩

/-- The test of monotonicity, with the numerator, the denominator and the roots of `3 n`. -/
def exMono : ℚ → Expr → Bool → Bool :=
  fun base e poly => (Functional.nnnd ⟨id, fun _ => .num 1, fun _ => some [0]⟩ id "n" 2 base e poly (-1)).1

theorem exMono_n : exMono 1 (.mul [.num 3, .sym "n"]) true = true := by
  simp [exMono, Functional.nnnd, Functional.isNonNegative, Functional.findDomain, Functional.bothDom, Functional.exDom, Functional.isNonDecPoly,
    has, isPolynomial, isScalarRep]

/-- The hypotheses of `C120_lower` are met by `x(n) = 8 x(n/2) + 3 n + 5`, for every `x(1) ≥ 0`; the term `3 n` is outside the range
of the sharper bound. -/
theorem C120_nonvacuous (x1 : ℝ) (hx : 0 ≤ x1) : ∃ ξ : ℝ → ℝ,
    (∀ e ∈ addends (.add [.mul [.num 3, .sym "n"], .num 5]), ∃ c k, Mono "n" c k e ∧
      Decided (idealCmp ξ fun _ => 0) 8 2 c k ∧ Covered ξ (fun _ => 0) "n" exSum exMono 8 2 c k e) ∧
    ¬ InRange ((8 : ℚ) : ℝ) 2 ((1 : ℚ) : ℝ) ∧
    CmpOk ξ (fun _ => 0) "n" (idealCmp ξ fun _ => 0) ∧
    hasParameters "n" (.add [.mul [.num 3, .sym "n"], .num 5]) = false ∧
    Satisfies ξ (8 : ℚ) 2 (val ξ (fun _ => 0) "n" (.add [.mul [.num 3, .sym "n"], .num 5])) ∧
    (∀ i : ℕ, 1 ≤ i → i < 2 → 0 ≤ ξ i) ∧ ξ 1 = x1 := by
  obtain ⟨ξ, h1, h2⟩ := exists_solution 8 (le_refl 2) (fun m => 3 * (m : ℝ) + 5) (fun _ => x1)
  have hx1 : ξ 1 = x1 := by simpa using h2 1 le_rfl (by norm_num)
  have pos : ∀ c : ℚ, 0 < c → idealCmp ξ (fun _ => 0) (.num c) (.num 0) = .greater := fun c hc =>
    idealCmp_greater (by simp only [ev_num]; exact_mod_cast hc)
  have dec : ∀ x y, idealCmp ξ (fun _ => 0) x y ≠ .unknown := by
    intro x y; unfold idealCmp; split_ifs <;> simp
  refine ⟨ξ, ?_, ?_, idealCmp_ok _ _ _, by simp [hasParameters], ?_, ?_, hx1⟩
  · intro e he
    simp only [addends, List.mem_cons, List.not_mem_nil, or_false] at he
    rcases he with rfl | rfl
    · refine ⟨3, 1, .cn 3, ⟨pos _ (by norm_num), dec _ _⟩, Or.inr ⟨1, le_rfl, by norm_num, by norm_num, exMono_n, ?_⟩⟩
      refine ⟨by simp [exSum], ?_, rfl, fun _ _ => rfl, fun _ h => h⟩
      have : exSum.expand (sumArg "n" .lower (.mul [.num 3, .sym "n"]) (2 : ℕ)) = .mul [.num 3, .pow (.num 2) (.sym "n")] ∨
          exSum.expand (sumArg "n" .lower (.mul [.num 3, .sym "n"]) (2 : ℕ)) = .mul [.pow (.num 2) (.sym "n"), .num 3] := by
        simp [exSum, sumArg, substitute, powE, mulE]
      rw [show (((2 : ℕ) : ℚ)) ^ 1 = 2 by norm_num]
      rcases this with h | h <;> rw [h]
      · exact .cb
      · exact .bc
    · exact ⟨5, 0, .const 5, ⟨pos _ (by norm_num), dec _ _⟩, Or.inl (Or.inl (by norm_num))⟩
  · rintro (h | ⟨-, -, h⟩ | ⟨h, -⟩) <;> norm_num at h
  · have hv : val ξ (fun _ => 0) "n" (.add [.mul [.num 3, .sym "n"], .num 5]) = fun m : ℕ => 3 * (m : ℝ) + 5 := by
      funext m; simp [val, eval]
    rw [hv]
    simpa using h1
  · intro i hi hi2
    have : i = 1 := by omega
    subst this
    simpa [hx1] using hx

theorem ex_dec_lower : expPolyDecomposition "n" (exSum.expand (sumArg "n" .lower (.sym "n") (2 : ℕ))) = [(.num 2, .num 1, .num 0)] := by
  simp [exSum, sumArg, substitute, powE, expPolyDecomposition, epSummand, epBase, epFactor, bumpLast, isScalarRep, isolatePolynomialPart, isPolynomial, addE]

theorem ex_dec_upper : expPolyDecomposition "n" (exSum.expand (sumArg "n" .upper (.sym "n") (2 : ℕ))) =
    [(.num 1, .num (-1), .num 0), (.num 2, .num 1, .num 0)] := by
  simp [exSum, sumArg, substitute, powE, subE, negE, expPolyDecomposition, epSummand, epBase, epFactor, bumpLast, isScalarRep, isolatePolynomialPart, isPolynomial, addE, mulE]

/-- The hypotheses of the theorems C119 are met by the sums for `x(n) = 8 x(n/2) + n`. -/
theorem C119_nonvacuous (ξ : ℝ → ℝ) (ρ : String → ℝ) : (∀ t, SumGood ξ ρ "n" exSum t (.sym "n") 8 2) ∧ GosperOk ξ ρ "n" exSum ∧
    (∀ t, OneBase "n" exSum t (.sym "n") 2) ∧
    (∀ t, ∃ d ∈ expPolyDecomposition "n" (exSum.expand (sumArg "n" t (.sym "n") (2 : ℕ))), d.2.1 ≠ .num 0) ∧
    (∀ t, ∀ d ∈ expPolyDecomposition "n" (exSum.expand (sumArg "n" t (.sym "n") (2 : ℕ))), d.2.2 = .num 0) := by
  have hco : ∀ c : ℚ, SimplifySum.CoeffsFor (realInterp ξ) "k" "n" (.num c) [.num c] := by
    intro c
    refine ⟨by simp [Coeffs, isScalarRep, hasSumOrProd], fun ρ v => by simp [polyVal, eval]⟩
  refine ⟨fun t => ⟨by simp [exSum], by simp [hasSumOrProd], ?_, fun q => rfl, ?_, ?_, fun r => ⟨fun q => rfl, fun h => h⟩⟩,
    fun T g i h => by simp [exSum] at h, ?_, ?_, ?_⟩
  · exact sumArg_nb (by simp [hasSumOrProd])
  · cases t with
    | lower => rw [ex_dec_lower]; intro d hd; simp at hd; subst hd; exact hco 1
    | upper => rw [ex_dec_upper]; intro d hd; simp at hd; rcases hd with rfl | rfl; exacts [hco _, hco _]
  · cases t with
    | lower => rw [ex_dec_lower]; intro d hd; simp at hd; subst hd; right; norm_num [eval]
    | upper => rw [ex_dec_upper]; intro d hd; simp at hd; rcases hd with rfl | rfl <;> right <;> norm_num [eval]
  · intro t; left
    cases t with
    | lower => rw [ex_dec_lower]; simp
    | upper => rw [ex_dec_upper]; simp
  · intro t
    cases t with
    | lower => rw [ex_dec_lower]; simp
    | upper => rw [ex_dec_upper]; simp
  · intro t
    cases t with
    | lower => rw [ex_dec_lower]; simp
    | upper => rw [ex_dec_upper]; simp

/-! ### Two bases and Gosper's algorithm -/

/-- `log(n) + n log(n)`. -/
def twoBases : Expr := .add [.fn .log [.sym "n"], .mul [.sym "n", .fn .log [.sym "n"]]]

/-- `log(2) (2 - (n+2) (1/2)^n + n (n+1) / 2)`, the sum of `2^(-k) (log(2^k) + 2^k log(2^k))` for `k` from 1 to `n`. -/
def twoSum : Expr := .mul [.fn .log [.num 2], .add [.num 2, .mul [.num (-1), .add [.sym "n", .num 2], .pow (.num (1/2)) (.sym "n")],
  .mul [.num (1/2), .sym "n", .add [.sym "n", .num 1]]]]

/-- Operations for the example: Gosper's algorithm finds the closed form of this sum. -/
def twoOps : SumOps := ⟨id, id, fun e => [e], "k", "h", fun T i =>
  if T = mulE (powE (.num 2) (negE (.sym "n"))) (sumArg "n" .lower twoBases 2) ∧ i = 1 then some twoSum else none⟩

theorem two_dec : expPolyDecomposition "n" (twoOps.expand (sumArg "n" .lower twoBases (2 : ℕ))) =
    [(.num 1, .num 0, .fn .log [.pow (.num 2) (.sym "n")]), (.num 2, .num 0, .fn .log [.pow (.num 2) (.sym "n")])] := by
  have hx : twoOps.expand = id := rfl
  rw [hx]
  simp [twoBases, sumArg, substitute, powE, addE, mulE, expPolyDecomposition, epSummand, epSplit, epBase, epFactor, bumpLast, isScalarRep, isolatePolynomialPart, isPolynomial]

theorem two_gosper (ξ : ℝ → ℝ) (ρ : String → ℝ) : GosperOk ξ ρ "n" twoOps := by
  intro T g i h
  have hx : twoOps.gosper T i = if T = mulE (powE (.num 2) (negE (.sym "n"))) (sumArg "n" .lower twoBases 2) ∧ (i : ℚ) = 1 then some twoSum else none := rfl
  rw [hx] at h
  split_ifs at h with h'
  obtain ⟨rfl, hi⟩ := h'
  simp only [Option.some.injEq] at h
  subst h
  have hi : i = 1 := by exact_mod_cast hi
  subst hi
  refine ⟨by simp [twoSum, hasSumOrProd], fun q _ => ?_⟩
  have hs : hasSumOrProd twoBases = false := by simp [twoBases, hasSumOrProd]
  have hT : ∀ j : ℕ, val ξ ρ "n" (mulE (powE (.num 2) (negE (.sym "n"))) (sumArg "n" .lower twoBases 2)) j =
      ((1 / 2 : ℝ) ^ j * j + j) * Real.log 2 := by
    intro j
    have h1 : val ξ ρ "n" (sumArg "n" .lower twoBases 2) j = val ξ ρ "n" twoBases (2 ^ j) := by
      have := sumArg_val (ξ := ξ) (ρ := ρ) (n := "n") (t := .lower) (s := twoBases) (b := 2) (by norm_num) hs j
      simpa [Ty.arg] using this
    have h2 : val ξ ρ "n" twoBases (2 ^ j) = (1 + 2 ^ j) * (j * Real.log 2) := by
      unfold val twoBases
      simp [eval, realInterp, realFn, Real.log_pow]
      ring
    have h3 : val ξ ρ "n" (powE (.num 2) (negE (.sym "n"))) j = (1 / 2 : ℝ) ^ j := by
      unfold val
      rw [ev_pow, ev_num, eval_negE]
      simp only [eval, Function.update_self]
      rw [Real.rpow_neg (by norm_num), Real.rpow_natCast, one_div, inv_pow]
      norm_num
    have h4 : val ξ ρ "n" (mulE (powE (.num 2) (negE (.sym "n"))) (sumArg "n" .lower twoBases 2)) j =
        val ξ ρ "n" (powE (.num 2) (negE (.sym "n"))) j * val ξ ρ "n" (sumArg "n" .lower twoBases 2) j := by
      unfold val; rw [eval_mulE]
    rw [h4, h1, h2, h3]
    have : (1 / 2 : ℝ) ^ j * 2 ^ j = 1 := by rw [← mul_pow]; norm_num
    linear_combination (j * Real.log 2) * this
  have hg : ∀ q : ℕ, val ξ ρ "n" twoSum q = Real.log 2 * (2 - (q + 2) * (1 / 2 : ℝ) ^ q + q * (q + 1) / 2) := by
    intro q
    unfold val twoSum
    simp [eval, realInterp, realFn, -mul_eq_mul_left_iff]
    ring
  rw [hg]
  simp only [hT]
  induction q with
  | zero => norm_num
  | succ q ih =>
    rw [Finset.sum_Icc_succ_top (by omega), ← ih (by omega)]
    push_cast
    rw [pow_succ]
    ring

/-- **C119.**  The sums are not right when Gosper's algorithm is used on a summand with several bases: for `x(n) = 2 x(n/2) + log(n) + n log(n)`
the closed form of the sum from `k = 1` to `1`, that is `g(2) = 3 log(2)`, has the value `6 log(2)`; the lower bound built with it is too large. -/
theorem C119_two_bases_refuted (ξ : ℝ → ℝ) (ρ : String → ℝ) : GosperOk ξ ρ "n" twoOps ∧ SumGood ξ ρ "n" twoOps .lower twoBases 2 2 ∧
    sumSpec 2 2 (val ξ ρ "n" twoBases) 1 .lower = 3 * Real.log 2 ∧
    ∃ r, boundSum "n" twoOps .lower twoBases 2 2 = some r ∧ val ξ ρ "n" r 1 = 6 * Real.log 2 ∧
      trySum "n" twoOps .lower twoBases 2 2 = r := by
  have hco : ∀ c : ℚ, SimplifySum.CoeffsFor (realInterp ξ) "k" "n" (.num c) [.num c] := by
    intro c
    refine ⟨by simp [Coeffs, isScalarRep, hasSumOrProd], fun ρ v => by simp [polyVal, eval]⟩
  have hs : hasSumOrProd twoBases = false := by simp [twoBases, hasSumOrProd]
  have hgood : SumGood ξ ρ "n" twoOps .lower twoBases 2 2 := by
    refine ⟨by simp [twoOps], hs, (show hasSumOrProd (sumArg "n" .lower twoBases ((2 : ℕ) : ℚ)) = false from sumArg_nb hs), fun q => rfl, ?_, ?_, fun r => ⟨fun q => rfl, fun h => h⟩⟩
    · rw [two_dec]; intro d hd; simp at hd; rcases hd with rfl | rfl <;> exact hco 0
    · rw [two_dec]; intro d hd; simp at hd
      rcases hd with rfl | rfl
      · right; norm_num [eval]
      · left; rfl
  have hsum : sumSpec 2 2 (val ξ ρ "n" twoBases) 1 .lower = 3 * Real.log 2 := by
    unfold sumSpec val twoBases
    simp [eval, realInterp, realFn]
    ring
  have hr : ∃ r, boundSum "n" twoOps .lower twoBases 2 2 = some r := by
    have hd := two_dec
    unfold boundSum
    simp only [Nat.cast_ofNat] at hd
    simp only
    rw [hd]
    simp [gosperLoop, twoOps, Ty.index]
  obtain ⟨r, hr⟩ := hr
  refine ⟨two_gosper ξ ρ, hgood, hsum, r, hr, ?_, by simp [trySum, hr]⟩
  have := (C119_gosper_partial (ξ := ξ) (ρ := ρ) (a := 2) (b := 2) (by norm_num) (by norm_num) hgood (two_gosper ξ ρ) (by
    rw [two_dec]; intro d hd; simp at hd; rcases hd with rfl | rfl <;> rfl) (by exact_mod_cast hr)).2 1 (by simp [Ty.start])
  rw [this, two_dec]
  push_cast
  rw [hsum]
  norm_num
  ring

end Purrs.Bounds
