import Verif.Model.BoundSums
import Verif.Props.BoundsMono
import Verif.Props.SimplifySum

/-!
# C119: the closed forms of the sums in the bounds

`G(q) = Σ_{k=1}^q a^(q-k) s(b^k)` and `H(q) = Σ_{k=2}^q a^(q-k) s(b^k - 1)` (`sumSpec`).
-/

set_option linter.unusedSectionVars false

namespace Purrs.Bounds

open Purrs.WeightedAvg Finset
open SimplifySum (CoeffsFor nb_sumPTE dec_closed closed_nb Entry)
open Function (update update_of_ne update_self)

/-! ## Specification -/

/-- What is assumed of the operations that are not modelled, for the summand `s`: the expanded summand has the same values and no
binders, the coefficients of its polynomials are right, a base that is not the number `a` has another value; the simplification
of the result keeps the values at the integers and makes no binders. -/
structure SumGood (ξ : ℝ → ℝ) (ρ : String → ℝ) (n : String) (O : SumOps) (t : Ty) (s : Expr) (a : ℚ) (b : ℕ) : Prop where
  new : O.k ≠ n
  nb : hasSumOrProd s = false
  nbx : hasSumOrProd (O.expand (sumArg n t s b)) = false
  expand : ∀ q : ℕ, val ξ ρ n (O.expand (sumArg n t s b)) q = val ξ ρ n (sumArg n t s b) q
  coeffs : ∀ d ∈ expPolyDecomposition n (O.expand (sumArg n t s b)),
    CoeffsFor (realInterp ξ) O.k n d.2.1 (O.coeffs d.2.1)
  base : ∀ d ∈ expPolyDecomposition n (O.expand (sumArg n t s b)), d.1 = .num a ∨ eval (realInterp ξ) ρ d.1 ≠ a
  simp : ∀ r, (∀ q : ℕ, val ξ ρ n (O.simp r) q = val ξ ρ n r q) ∧ (hasSumOrProd r = false → hasSumOrProd (O.simp r) = false)

/-- Gosper's algorithm is right: what it returns is a closed form of the sum from `i` to `n`. -/
def GosperOk (ξ : ℝ → ℝ) (ρ : String → ℝ) (n : String) (O : SumOps) : Prop :=
  ∀ T g, ∀ i : ℕ, O.gosper T i = some g → hasSumOrProd g = false ∧
    ∀ q : ℕ, i ≤ q + 1 → val ξ ρ n g q = ∑ j ∈ Icc i q, val ξ ρ n T j

section
variable {ξ : ℝ → ℝ} {ρ : String → ℝ} {n : String} {O : SumOps} {t : Ty} {s : Expr} {a : ℚ} {b : ℕ}

/-- The first index of the sums. -/
def Ty.start : Ty → ℕ
  | .lower => 1
  | .upper => 2

/-- The arguments of the summand. -/
def Ty.arg (b k : ℕ) : Ty → ℕ
  | .lower => b ^ k
  | .upper => b ^ k - 1

theorem sumSpec_eq (a : ℝ) (b : ℕ) (f : ℕ → ℝ) (q : ℕ) (t : Ty) :
    sumSpec a b f q t = ∑ k ∈ Icc t.start q, a ^ (q - k) * f (t.arg b k) := by
  cases t <;> rfl

theorem index_eq (t : Ty) : t.index = (t.start : ℚ) := by cases t <;> norm_num [Ty.index, Ty.start]

theorem nb_divE {x y : Expr} (hx : hasSumOrProd x = false) (hy : hasSumOrProd y = false) : hasSumOrProd (divE x y) = false :=
  nb_mulE hx (nb_powE hy (nb_num _))

theorem sumArg_val (hb : 1 ≤ b) (hs : hasSumOrProd s = false) (q : ℕ) :
    val ξ ρ n (sumArg n t s b) q = val ξ ρ n s (t.arg b q) := by
  have hp : eval (realInterp ξ) (update ρ n (q : ℝ)) (powE (.num b) (.sym n)) = ((b ^ q : ℕ) : ℝ) := by
    rw [eval_powE]
    simp only [eval, update_self]
    rw [pw_nat]
    push_cast; rfl
  unfold sumArg val
  cases t with
  | lower =>
    simp only [Ty.arg]
    rw [C18_substitute_binderfree _ _ _ _ hs, hp, Function.update_idem]
  | upper =>
    simp only [Ty.arg]
    rw [C18_substitute_binderfree _ _ _ _ hs, eval_subE, hp, ev_num, Function.update_idem, Nat.cast_sub (Nat.one_le_pow _ _ (by omega))]
    norm_num

theorem sumArg_nb (hs : hasSumOrProd s = false) : hasSumOrProd (sumArg n t s b) = false := by
  have h1 : hasSumOrProd (powE (.num b) (.sym n)) = false := nb_powE (nb_num _) (nb_sym _)
  unfold sumArg
  cases t with
  | lower => exact nb_substitute h1 hs
  | upper => exact nb_substitute (nb_subE h1 (nb_num _)) hs

theorem sumTerm_val (ha : 0 < a) (hk : O.k ≠ n) {d : Expr × Expr × Expr} (hd1 : hasSumOrProd d.1 = false) (hd2 : hasSumOrProd d.2.1 = false)
    (hs : isScalarRep n d.1 = true) (hc : CoeffsFor (realInterp ξ) O.k n d.2.1 (O.coeffs d.2.1))
    (hb : d.1 = .num a ∨ eval (realInterp ξ) ρ d.1 ≠ a) (acc : Expr) {q : ℕ} (hq : t.start ≤ q + 1) :
    (a : ℝ) ^ q * val ξ ρ n (sumTerm n O t a d acc) q = (a : ℝ) ^ q * val ξ ρ n acc q +
      ∑ j ∈ Icc t.start q, (a : ℝ) ^ (q - j) * (val ξ ρ n d.2.1 j * eval (realInterp ξ) ρ d.1 ^ j) := by
  have ha' : (a : ℝ) ≠ 0 := by exact_mod_cast ha.ne'
  set B := eval (realInterp ξ) ρ d.1 with hB
  have eB : ∀ v : ℝ, eval (realInterp ξ) (update ρ n v) d.1 = B := fun v => C20_scalar_sound _ n d.1 hs _ _
  have eD : ∀ ρ', eval (realInterp ξ) ρ' (divE d.1 (.num a)) = eval (realInterp ξ) ρ' d.1 / a := by
    intro ρ'
    rw [eval_divE, ev_num]
  have e0 : ∀ m : ℕ, eval (realInterp ξ) (update ρ n (q : ℝ)) (substitute (.sym n) (.num m) d.2.1) = val ξ ρ n d.2.1 m := by
    intro m
    rw [C18_substitute_binderfree _ _ _ _ hd2, ev_num, Function.update_idem]
    unfold val
    rw [show (((m : ℕ) : ℚ) : ℝ) = ((m : ℕ) : ℝ) by push_cast; rfl]
  have hclosed : eval (realInterp ξ) (update ρ n (q : ℝ)) (sumPolyTimesExponentials O.k n (O.coeffs d.2.1) (divE d.1 (.num a))) =
      ∑ j ∈ range (q + 1), val ξ ρ n d.2.1 j * (B / a) ^ j := by
    rw [C10_sum_poly_times_exponentials _ _ O.k n hk _ hc.1 _ ?_ q (by simp)]
    · refine sum_congr rfl fun j _ => ?_
      rw [← hc.2, Function.update_idem, eD, eB]
      rfl
    · rcases hb with h | h
      · left
        rw [h]
        unfold divE powE mulE
        simp [ha.ne']
      · right
        rw [eD, eB]
        intro h'
        exact h ((div_eq_one_iff_eq ha').mp h')
  have key : ∀ j ∈ Icc t.start q, (a : ℝ) ^ (q - j) * (val ξ ρ n d.2.1 j * B ^ j) = (a : ℝ) ^ q * (val ξ ρ n d.2.1 j * (B / a) ^ j) := by
    intro j hj
    rw [div_pow, ← pow_sub_mul_pow (a : ℝ) (mem_Icc.1 hj).2]
    field_simp
  rw [sum_congr rfl key, ← mul_sum, ← mul_add]
  congr 1
  have h01 : eval (realInterp ξ) (update ρ n (q : ℝ)) (substitute (.sym n) (.num 0) d.2.1) = val ξ ρ n d.2.1 0 := by
    simpa using e0 0
  have h11 : eval (realInterp ξ) (update ρ n (q : ℝ)) (substitute (.sym n) (.num 1) d.2.1) = val ξ ρ n d.2.1 1 := by
    simpa using e0 1
  have hr0 : ∑ j ∈ range (q + 1), val ξ ρ n d.2.1 j * (B / a) ^ j = val ξ ρ n d.2.1 0 + ∑ j ∈ Icc 1 q, val ξ ρ n d.2.1 j * (B / a) ^ j := by
    rw [range_eq_Ico, sum_eq_sum_Ico_succ_bot (by omega)]
    simp only [pow_zero, mul_one]
    rfl
  cases t with
  | lower =>
    unfold sumTerm
    simp only [Ty.start]
    unfold val at *
    rw [eval_subE, eval_addE, hclosed, h01, hr0]
    ring
  | upper =>
    simp only [Ty.start] at hq ⊢
    have hr1 : ∑ j ∈ Icc 1 q, val ξ ρ n d.2.1 j * (B / a) ^ j = val ξ ρ n d.2.1 1 * (B / a) + ∑ j ∈ Icc 2 q, val ξ ρ n d.2.1 j * (B / a) ^ j := by
      rw [← add_sum_Ioc_eq_sum_Icc (show 1 ≤ q by omega)]
      simp only [pow_one]
      rfl
    unfold sumTerm
    simp only
    unfold val at *
    rw [eval_subE, eval_subE, eval_addE, hclosed, h01, hr0, hr1, eval_divE, eval_mulE, h11, eB, ev_num]
    ring

theorem sumTerm_nb (hk : O.k ≠ n) {d : Expr × Expr × Expr} (hd1 : hasSumOrProd d.1 = false) (hd2 : hasSumOrProd d.2.1 = false)
    (hc : CoeffsFor (realInterp ξ) O.k n d.2.1 (O.coeffs d.2.1)) {acc : Expr} (hacc : hasSumOrProd acc = false) :
    hasSumOrProd (sumTerm n O t a d acc) = false := by
  have h1 := nb_sumPTE (m := n) hc.1 (nb_divE hd1 (nb_num a))
  have h2 : ∀ m : ℚ, hasSumOrProd (substitute (.sym n) (.num m) d.2.1) = false := fun m => nb_substitute (nb_num _) hd2
  unfold sumTerm
  cases t with
  | lower => exact nb_subE (nb_addE hacc h1) (h2 0)
  | upper => exact nb_subE (nb_subE (nb_addE hacc h1) (h2 0)) (nb_divE (nb_mulE (h2 1) hd1) (nb_num _))

/-- **C119**, polynomials times exponentials: the returned closed form has no binder and its value at every integer `q` is that of
the sum. -/
theorem C119_closed_form (ha : 0 < a) (hb : 1 ≤ b) (hg : SumGood ξ ρ n O t s a b)
    (hp : ∀ d ∈ expPolyDecomposition n (O.expand (sumArg n t s b)), d.2.2 = .num 0)
    (h1 : ∃ d ∈ expPolyDecomposition n (O.expand (sumArg n t s b)), d.2.1 ≠ .num 0) :
    ∃ r, boundSum n O t s a b = some r ∧ hasSumOrProd r = false ∧
      ∀ q : ℕ, t.start ≤ q + 1 → val ξ ρ n r q = sumSpec a b (val ξ ρ n s) q t := by
  unfold boundSum
  simp only
  rw [if_neg (by simp only [Bool.and_eq_true, not_and]; intro _; simpa using hp), if_pos (by simpa using h1)]
  obtain ⟨hE, hV⟩ := C13_decomposition (realInterp ξ) n (O.expand (sumArg n t s b))
  have hcl := fun d hd => dec_closed (closed_nb n) hg.nbx d hd
  have hco := hg.coeffs
  have hba := hg.base
  have hsc := hE.scalar
  have hexp : ∀ k : ℕ, val ξ ρ n s (t.arg b k) = ((expPolyDecomposition n (O.expand (sumArg n t s b))).map fun d =>
      val ξ ρ n d.2.1 k * eval (realInterp ξ) ρ d.1 ^ k).sum := by
    intro k
    rw [← sumArg_val hb hg.nb, ← hg.expand]
    unfold val
    rw [← hV, epValue]
    congr 1
    refine List.map_congr_left fun d hd => ?_
    rw [hp d hd, C20_scalar_sound _ n d.1 (hsc d hd), update_self, pw_nat]
    simp only [eval]
    push_cast; ring
  have key : ∀ l : List (Expr × Expr × Expr), (∀ d ∈ l, d ∈ expPolyDecomposition n (O.expand (sumArg n t s b))) →
      hasSumOrProd (l.foldr (sumTerm n O t a) (.num 0)) = false ∧ ∀ q : ℕ, t.start ≤ q + 1 →
      (a : ℝ) ^ q * val ξ ρ n (l.foldr (sumTerm n O t a) (.num 0)) q =
        ∑ j ∈ Icc t.start q, (a : ℝ) ^ (q - j) * (l.map fun d => val ξ ρ n d.2.1 j * eval (realInterp ξ) ρ d.1 ^ j).sum := by
    intro l hl
    induction l with
    | nil => exact ⟨nb_num _, fun q _ => by simp [val_num]⟩
    | cons d l ih =>
      obtain ⟨i1, i2⟩ := ih fun d hd => hl d (by simp [hd])
      have hd := hl d (by simp)
      obtain ⟨n1, n2, -⟩ := hcl d hd
      refine ⟨sumTerm_nb hg.new n1 n2 (hco d hd) i1, fun q hq => ?_⟩
      rw [List.foldr_cons, sumTerm_val ha hg.new n1 n2 (hsc d hd) (hco d hd) (hba d hd) _ hq, i2 q hq, ← sum_add_distrib]
      refine sum_congr rfl fun j _ => ?_
      rw [List.map_cons, List.sum_cons]
      ring
  obtain ⟨k1, k2⟩ := key _ fun d hd => hd
  refine ⟨_, rfl, (hg.simp _).2 (nb_mulE k1 (nb_powE (nb_num _) (nb_sym _))), fun q hq => ?_⟩
  rw [(hg.simp _).1, sumSpec_eq]
  have := k2 q hq
  unfold val at this ⊢
  rw [eval_mulE, eval_powE]
  simp only [eval, update_self]
  rw [pw_nat, mul_comm, this]
  refine sum_congr rfl fun j _ => ?_
  congr 1
  exact (hexp j).symm

/-- **C119**, the other summands (Gosper's algorithm): the returned closed form is as many times the sum as there are bases of
exponentials in the summand, hence it is the sum if there is only one base. -/
theorem C119_gosper_partial (ha : 0 < a) (hb : 1 ≤ b) (hg : SumGood ξ ρ n O t s a b) (hO : GosperOk ξ ρ n O)
    (hp : ∀ d ∈ expPolyDecomposition n (O.expand (sumArg n t s b)), d.2.1 = .num 0) {r : Expr} (h : boundSum n O t s a b = some r) :
    hasSumOrProd r = false ∧ ∀ q : ℕ, t.start ≤ q + 1 →
      val ξ ρ n r q = (expPolyDecomposition n (O.expand (sumArg n t s b))).length * sumSpec a b (val ξ ρ n s) q t := by
  have ha' : (a : ℝ) ≠ 0 := by exact_mod_cast ha.ne'
  have hany : ((expPolyDecomposition n (O.expand (sumArg n t s b))).any fun d => decide (d.2.1 ≠ .num 0)) = false := by
    simpa using hp
  unfold boundSum at h
  simp only at h
  rw [if_neg (by rw [hany]; simp), if_neg (by rw [hany]; simp)] at h
  obtain ⟨u, hu, rfl⟩ := Option.map_eq_some_iff.mp h
  have hT : ∀ j : ℕ, val ξ ρ n (mulE (powE (.num a) (negE (.sym n))) (sumArg n t s b)) j = val ξ ρ n s (t.arg b j) / (a : ℝ) ^ j := by
    intro j
    rw [← sumArg_val hb hg.nb]
    unfold val
    rw [eval_mulE, eval_powE, eval_negE]
    simp only [eval, update_self]
    have := (realInterp ξ).pw_int (a : ℝ) (-(j : ℤ))
    push_cast at this
    rw [this, zpow_neg, zpow_natCast, div_eq_mul_inv, mul_comm]
  have key : ∀ (l : List (Expr × Expr × Expr)) (u : Expr), gosperLoop n O t a (sumArg n t s b) l = some u →
      hasSumOrProd u = false ∧ ∀ q : ℕ, t.start ≤ q + 1 →
        (a : ℝ) ^ q * val ξ ρ n u q = l.length * sumSpec a b (val ξ ρ n s) q t := by
    intro l
    induction l with
    | nil =>
      intro u hu
      simp only [gosperLoop, List.foldr_nil, Option.some.injEq] at hu
      subst hu
      exact ⟨nb_num _, fun q _ => by simp [val_num]⟩
    | cons d l ih =>
      intro u hu
      unfold gosperLoop at hu
      rw [List.foldr_cons] at hu
      obtain ⟨v, hv, hu⟩ := Option.bind_eq_some_iff.mp hu
      obtain ⟨g, hgg, rfl⟩ := Option.map_eq_some_iff.mp hu
      obtain ⟨i1, i2⟩ := ih v hv
      rw [index_eq] at hgg
      obtain ⟨g1, g2⟩ := hO _ _ _ hgg
      refine ⟨nb_addE i1 g1, fun q hq => ?_⟩
      have e : val ξ ρ n (addE v g) q = val ξ ρ n v q + val ξ ρ n g q := by unfold val; rw [eval_addE]
      rw [e, mul_add, i2 q hq, g2 q hq, List.length_cons, mul_sum, sumSpec_eq]
      push_cast
      rw [add_mul, one_mul]
      congr 1
      refine sum_congr rfl fun j hj => ?_
      rw [hT, ← pow_sub_mul_pow (a : ℝ) (mem_Icc.1 hj).2]
      field_simp
  obtain ⟨k1, k2⟩ := key _ u hu
  refine ⟨(hg.simp _).2 (nb_mulE k1 (nb_powE (nb_num _) (nb_sym _))), fun q hq => ?_⟩
  rw [(hg.simp _).1, ← k2 q hq]
  unfold val
  rw [eval_mulE, eval_powE]
  simp only [eval, update_self]
  rw [pw_nat, mul_comm]

/-- **C119**, no closed form: the value of the returned symbolic sum at the integers. -/
theorem C119_symbolic (hb : 1 ≤ b) (hn : O.h ≠ n) (hs : hasSumOrProd s = false) (hh : has (.sym O.h) s = false) (q : ℕ) :
    val ξ ρ n (symbolicSum n O t s a b) q = sumSpec a b (val ξ ρ n s) q t := by
  have hpow : ∀ ρ' : String → ℝ, ∀ j : ℕ, ρ' O.h = j → eval (realInterp ξ) ρ' (powE (.num b) (.sym O.h)) = ((b ^ j : ℕ) : ℝ) := by
    intro ρ' j hj
    rw [eval_powE]
    simp only [eval, hj]
    rw [pw_nat]
    push_cast; rfl
  have hbody : ∀ (i : ℕ) (r : Expr), i ∈ Icc t.start q →
      eval (realInterp ξ) (update (update ρ n (q : ℝ)) O.h (i : ℝ)) r = ((t.arg b i : ℕ) : ℝ) →
      eval (realInterp ξ) (update (update ρ n (q : ℝ)) O.h (i : ℝ)) (mulE (powE (.num a) (subE (.sym n) (.sym O.h))) (substitute (.sym n) r s)) =
        (a : ℝ) ^ (q - i) * val ξ ρ n s (t.arg b i) := by
    intro i r hi hr
    have hi' := (mem_Icc.1 hi).2
    rw [eval_mulE, eval_powE, eval_subE, C18_substitute_binderfree _ _ _ _ hs, hr]
    congr 1
    · simp only [eval, update_self, update_of_ne (Ne.symm hn)]
      rw [← Nat.cast_sub hi', pw_nat]
    · unfold val
      rw [Function.update_comm hn, Function.update_idem]
      exact Eliminate.eval_noSym _ _ _ _ hh _
  rw [sumSpec_eq]
  unfold symbolicSum
  cases t with
  | lower =>
    simp only [val, eval, update_self]
    show ∑ i ∈ Icc ⌈((1 : ℚ) : ℝ)⌉ ⌊(q : ℝ)⌋, _ = _
    rw [show ⌈((1 : ℚ) : ℝ)⌉ = 1 by simp, Int.floor_natCast]
    have : (Icc (1 : ℤ) q) = (Icc 1 q).map Nat.castEmbedding := by
      ext z; simp only [mem_Icc, mem_map, Nat.castEmbedding_apply]
      constructor
      · rintro ⟨h1, h2⟩; exact ⟨z.toNat, ⟨by omega, by omega⟩, by omega⟩
      · rintro ⟨y, ⟨h1, h2⟩, rfl⟩; omega
    rw [this, sum_map]
    refine sum_congr rfl fun i hi => ?_
    have := hbody i (powE (.num b) (.sym O.h)) hi (hpow _ i (by simp))
    simpa [bindIdx, val] using this
  | upper =>
    simp only [val, eval, update_self]
    show ∑ i ∈ Icc ⌈((2 : ℚ) : ℝ)⌉ ⌊(q : ℝ)⌋, _ = _
    rw [show ⌈((2 : ℚ) : ℝ)⌉ = 2 by simp, Int.floor_natCast]
    have : (Icc (2 : ℤ) q) = (Icc 2 q).map Nat.castEmbedding := by
      ext z; simp only [mem_Icc, mem_map, Nat.castEmbedding_apply]
      constructor
      · rintro ⟨h1, h2⟩; exact ⟨z.toNat, ⟨by omega, by omega⟩, by omega⟩
      · rintro ⟨y, ⟨h1, h2⟩, rfl⟩; omega
    rw [this, sum_map]
    refine sum_congr rfl fun i hi => ?_
    have := hbody i (subE (powE (.num b) (.sym O.h)) (.num 1)) hi (by
      rw [eval_subE, hpow _ i (by simp), ev_num, Ty.arg, Nat.cast_sub (Nat.one_le_pow _ _ (by omega))]
      norm_num)
    simpa [bindIdx, val] using this

/-- The case of Gosper's algorithm and several bases is left out. -/
def OneBase (n : String) (O : SumOps) (t : Ty) (s : Expr) (b : ℕ) : Prop :=
  (∀ d ∈ expPolyDecomposition n (O.expand (sumArg n t s b)), d.2.2 = .num 0) ∨
    (expPolyDecomposition n (O.expand (sumArg n t s b))).length = 1

theorem boundSum_val (ha : 0 < a) (hb : 1 ≤ b) (hg : SumGood ξ ρ n O t s a b) (hO : GosperOk ξ ρ n O) (h1 : OneBase n O t s b)
    {r : Expr} (h : boundSum n O t s a b = some r) :
    hasSumOrProd r = false ∧ ∀ q : ℕ, t.start ≤ q + 1 → val ξ ρ n r q = sumSpec a b (val ξ ρ n s) q t := by
  by_cases hp : ∃ d ∈ expPolyDecomposition n (O.expand (sumArg n t s b)), d.2.1 ≠ .num 0
  · by_cases hq : ∀ d ∈ expPolyDecomposition n (O.expand (sumArg n t s b)), d.2.2 = .num 0
    · obtain ⟨r', hr, h2⟩ := C119_closed_form ha hb hg hq hp
      rw [h] at hr
      simp only [Option.some.injEq] at hr
      subst hr
      exact h2
    · exfalso
      unfold boundSum at h
      simp only at h
      rw [if_pos] at h
      · simp at h
      · push Not at hq
        simp only [Bool.and_eq_true, List.any_eq_true, decide_eq_true_eq]
        exact ⟨hp, hq⟩
  · push Not at hp
    obtain ⟨g1, g2⟩ := C119_gosper_partial ha hb hg hO hp h
    refine ⟨g1, fun q hq => ?_⟩
    rw [g2 q hq]
    rcases h1 with h1 | h1
    · have : sumSpec a b (val ξ ρ n s) q t = 0 := by
        rw [sumSpec_eq]
        refine sum_eq_zero fun k _ => ?_
        have : val ξ ρ n s (t.arg b k) = 0 := by
          rw [← sumArg_val hb hg.nb, ← hg.expand]
          unfold val
          rw [← (C13_decomposition (realInterp ξ) n (O.expand (sumArg n t s b))).2, epValue]
          apply List.sum_eq_zero
          intro x hx
          obtain ⟨d, hd, rfl⟩ := List.mem_map.mp hx
          rw [hp d hd, h1 d hd]
          simp [eval]
        rw [this, mul_zero]
      rw [this, mul_zero]
    · rw [h1]; simp

/-- **C119.**  The expression put in the bound for a term that is non-negative and non-decreasing is, at every integer, not above
`G` (lower bounds) and not below `H` (upper bounds). -/
theorem C119_sum_partial (ha : 0 < a) (hb : 2 ≤ b) (hg : ∀ t, SumGood ξ ρ n O t s a b) (hO : GosperOk ξ ρ n O)
    (h1 : ∀ t, OneBase n O t s b) (hn : O.h ≠ n) (hh : has (.sym O.h) s = false)
    (h0 : ∀ m : ℕ, 1 ≤ m → 0 ≤ val ξ ρ n s m) (hm : ∀ i j : ℕ, 1 ≤ i → i ≤ j → val ξ ρ n s i ≤ val ξ ρ n s j) (q : ℕ) (hq : 1 ≤ q) :
    val ξ ρ n (trySum n O .lower s a b) q ≤ sumSpec a b (val ξ ρ n s) q .lower ∧
    sumSpec a b (val ξ ρ n s) q .upper ≤ val ξ ρ n (trySum n O .upper s a b) q := by
  have ha' : (0 : ℝ) < a := by exact_mod_cast ha
  have hHG : sumSpec a b (val ξ ρ n s) q .upper ≤ sumSpec a b (val ξ ρ n s) q .lower := by
    unfold sumSpec
    have e1 : ∑ k ∈ Icc 2 q, (a : ℝ) ^ (q - k) * val ξ ρ n s (b ^ k - 1) ≤ ∑ k ∈ Icc 2 q, (a : ℝ) ^ (q - k) * val ξ ρ n s (b ^ k) := by
      refine sum_le_sum fun k hk => ?_
      have : 2 ≤ k := (mem_Icc.1 hk).1
      have h2 : 2 ≤ b ^ k := le_trans hb (Nat.le_self_pow (by omega) b)
      have := hm (b ^ k - 1) (b ^ k) (by omega) (by omega)
      gcongr
    have e2 : ∑ k ∈ Icc 1 q, (a : ℝ) ^ (q - k) * val ξ ρ n s (b ^ k) =
        (a : ℝ) ^ (q - 1) * val ξ ρ n s (b ^ 1) + ∑ k ∈ Icc 2 q, (a : ℝ) ^ (q - k) * val ξ ρ n s (b ^ k) := by
      rw [← add_sum_Ioc_eq_sum_Icc hq]; rfl
    have e3 : 0 ≤ (a : ℝ) ^ (q - 1) * val ξ ρ n s (b ^ 1) := mul_nonneg (by positivity) (h0 _ (Nat.one_le_pow _ _ (by omega)))
    rw [e2]
    linarith
  have hst : ∀ t : Ty, t.start ≤ q + 1 := by intro t; cases t <;> simp only [Ty.start] <;> omega
  have key : ∀ t, val ξ ρ n (trySum n O t s a b) q = sumSpec a b (val ξ ρ n s) q t ∨
      val ξ ρ n (trySum n O t s a b) q = sumSpec a b (val ξ ρ n s) q t.swap := by
    intro t
    unfold trySum
    cases hb1 : boundSum n O t s a b with
    | some r => left; exact (boundSum_val ha (by omega) (hg t) hO (h1 t) hb1).2 q (hst t)
    | none =>
      simp only
      cases hb2 : boundSum n O t.swap s a b with
      | some r => right; exact (boundSum_val ha (by omega) (hg _) hO (h1 _) hb2).2 q (hst _)
      | none => left; exact C119_symbolic (by omega) hn (hg t).nb hh q
  constructor
  · rcases key .lower with h | h
    · exact h.le
    · rw [h]; exact hHG
  · rcases key .upper with h | h
    · exact h.ge
    · rw [h]; exact hHG

end
end Purrs.Bounds
