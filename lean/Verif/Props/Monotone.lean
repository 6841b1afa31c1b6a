import Verif.Props.Functional
import Mathlib.Analysis.Polynomial.Basic
import Mathlib.Topology.Algebra.Polynomial
import Mathlib.Topology.Order.IntermediateValue

/-!
# C57: the non-decreasing test for the inhomogeneous part of functional equations
-/

set_option linter.unusedSectionVars false

namespace Purrs.Functional

open Purrs Purrs.WeightedAvg Purrs.Bounds
open Purrs.OrderRed (idxNe)
open Function (update update_of_ne update_self)

variable {ξ : ℝ → ℝ} {ρ : String → ℝ} {x : String}

/-- What the test takes for granted: the addends and factors that do not depend on `x` are not negative, the arguments of
logarithms are at least 1 and do not decrease, and where the exponent is not a number the base is at least 1 (and the
exponent, if it does not depend on `x`, not negative). -/
def Safe (ξ : ℝ → ℝ) (ρ : String → ℝ) (x : String) (e : Expr) : Prop :=
  (has (.sym x) e = false → 0 ≤ eval (realInterp ξ) ρ e) ∧ ∀ s, Sub s e →
    (∀ l, s = .add l ∨ s = .mul l → ∀ a ∈ l, has (.sym x) a = false → 0 ≤ eval (realInterp ξ) ρ a) ∧
    (∀ l, s = .fn .log l → ∃ a, l = [a] ∧ ∀ m m' : ℕ, 1 ≤ m → m ≤ m' → 1 ≤ val ξ ρ x a m ∧ val ξ ρ x a m ≤ val ξ ρ x a m') ∧
    (∀ b ex, s = .pow b ex → (∀ q, ex ≠ .num q) → (∀ m : ℕ, 1 ≤ m → 1 ≤ val ξ ρ x b m) ∧
      (has (.sym x) ex = false → 0 ≤ eval (realInterp ξ) ρ ex))

/-- Not negative and not decreasing from `start` on. -/
def Grows (f : ℕ → ℝ) (start : ℕ) : Prop := ∀ m m', start ≤ m → m ≤ m' → 0 ≤ f m ∧ f m ≤ f m'

theorem grows_const {c : ℝ} (h : 0 ≤ c) (s : ℕ) : Grows (fun _ => c) s := fun _ _ _ _ => ⟨h, le_refl _⟩

theorem grows_free {e : Expr} (h : has (.sym x) e = false) (hs : 0 ≤ eval (realInterp ξ) ρ e) (s : ℕ) :
    Grows (val ξ ρ x e) s := by
  intro m m' _ _
  rw [val_noSym h, val_noSym h]; exact ⟨hs, le_refl _⟩

theorem grows_sum {s : ℕ} (l : List Expr) (h : ∀ a ∈ l, Grows (val ξ ρ x a) s) : Grows (val ξ ρ x (.add l)) s := by
  intro m m' hm hmm
  have e : ∀ k, val ξ ρ x (.add l) k = (l.map fun a => val ξ ρ x a k).sum := fun k => by simp [val, eval]
  rw [e, e]
  induction l with
  | nil => simp
  | cons a l ih =>
    have h1 := h a (by simp) m m' hm hmm
    have h2 := ih (fun a ha => h a (by simp [ha])) (fun k => by simp [val, eval])
    simp only [List.map_cons, List.sum_cons]
    exact ⟨add_nonneg h1.1 h2.1, add_le_add h1.2 h2.2⟩

theorem grows_prod {s : ℕ} (l : List Expr) (h : ∀ a ∈ l, Grows (val ξ ρ x a) s) : Grows (val ξ ρ x (.mul l)) s := by
  intro m m' hm hmm
  rw [val_mul, val_mul]
  induction l with
  | nil => simp
  | cons a l ih =>
    have h1 := h a (by simp) m m' hm hmm
    have h2 := ih (fun a ha => h a (by simp [ha]))
    simp only [List.map_cons, List.prod_cons]
    exact ⟨mul_nonneg h1.1 h2.1, mul_le_mul h1.2 h2.2 h2.1 (le_trans h1.1 h1.2)⟩

theorem grows_mul {f g : ℕ → ℝ} {s : ℕ} (hf : Grows f s) (hg : Grows g s) : Grows (fun m => f m * g m) s := by
  intro m m' hm hmm
  have h1 := hf m m' hm hmm
  have h2 := hg m m' hm hmm
  exact ⟨mul_nonneg h1.1 h2.1, mul_le_mul h1.2 h2.2 h2.1 (le_trans h1.1 h1.2)⟩

theorem grows_var (s : ℕ) : Grows (val ξ ρ x (.sym x)) s := by
  intro m m' _ hmm
  simp only [val, eval, update_self]
  exact ⟨Nat.cast_nonneg m, by exact_mod_cast hmm⟩

theorem grows_pow {b : Expr} {s : ℕ} {q : ℚ} (hq : 0 ≤ q) (h : Grows (val ξ ρ x b) s) :
    Grows (val ξ ρ x (.pow b (.num q))) s := by
  intro m m' hm hmm
  obtain ⟨h1, h2⟩ := h m m' hm hmm
  have hq' : (0 : ℝ) ≤ (q : ℝ) := by exact_mod_cast hq
  have e : ∀ k, val ξ ρ x (.pow b (.num q)) k = (val ξ ρ x b k) ^ (q : ℝ) := fun k => by simp [val, eval, realInterp]
  rw [e, e]
  exact ⟨Real.rpow_nonneg h1 _, Real.rpow_le_rpow h1 h2 hq'⟩

theorem grows_expo {b ex : Expr} {s : ℕ} (hb1 : ∀ m, s ≤ m → 1 ≤ val ξ ρ x b m) (hb : Grows (val ξ ρ x b) s)
    (he : Grows (val ξ ρ x ex) s) : Grows (val ξ ρ x (.pow b ex)) s := by
  intro m m' hm hmm
  obtain ⟨h1, h2⟩ := hb m m' hm hmm
  obtain ⟨k1, k2⟩ := he m m' hm hmm
  have e : ∀ k, val ξ ρ x (.pow b ex) k = (val ξ ρ x b k) ^ (val ξ ρ x ex k) := fun k => by simp [val, eval, realInterp]
  rw [e, e]
  exact ⟨Real.rpow_nonneg h1 _, le_trans (Real.rpow_le_rpow_of_exponent_le (hb1 m hm) k2)
    (Real.rpow_le_rpow h1 h2 (le_trans k1 k2))⟩

theorem safe_mem {l : List Expr} {e : Expr} (he : e = .add l ∨ e = .mul l) (h : Safe ξ ρ x e) {a : Expr} (ha : a ∈ l) :
    Safe ξ ρ x a := by
  refine ⟨(h.2 e (.refl _)).1 l he a ha, fun s hs => h.2 s ?_⟩
  rcases he with rfl | rfl
  · exact .add ha hs
  · exact .mul ha hs

theorem has_base {b ex : Expr} (h : has (.sym x) (.pow b ex) = true) (hp : isPosInt ex = true) : has (.sym x) b = true := by
  cases ex <;> simp [isPosInt] at hp
  simpa [has] using h

/-- The polynomial test. -/
theorem grows_poly (e : Expr) (h : isNonDecPoly x e = true) (hs : Safe ξ ρ x e) (start : ℕ) :
    Grows (val ξ ρ x e) start := by
  by_cases hx : has (.sym x) e = false
  · exact grows_free hx (hs.1 hx) _
  rw [Bool.not_eq_false] at hx
  induction e using Expr.ind with
  | num q => simp [has] at hx
  | const q => simp [has] at hx
  | sym s =>
    simp [isNonDecPoly] at h
    subst h
    exact grows_var _
  | add l ih =>
    simp only [isNonDecPoly, List.all_map, List.all_eq_true] at h
    refine grows_sum l fun a ha => ?_
    have sa := safe_mem (Or.inl rfl) hs ha
    by_cases hxa : has (.sym x) a = false
    · exact grows_free hxa (sa.1 hxa) _
    · have := h a ha
      simp at this
      exact ih a ha this.2 sa (by simpa using hxa)
  | mul l ih =>
    simp only [isNonDecPoly, List.all_map, List.all_eq_true] at h
    refine grows_prod l fun a ha => ?_
    have sa := safe_mem (Or.inr rfl) hs ha
    by_cases hxa : has (.sym x) a = false
    · exact grows_free hxa (sa.1 hxa) _
    · have := h a ha
      simp at this
      exact ih a ha this sa (by simpa using hxa)
  | pow b ex ihb ihe =>
    simp only [isNonDecPoly, hx, Bool.not_true, Bool.false_or, Bool.and_eq_true] at h
    have hb := has_base hx h.2
    have sb : Safe ξ ρ x b := ⟨fun h => by simp [hb] at h, fun s hsb => hs.2 s (.powB hsb)⟩
    have hg := ihb h.1 sb hb
    cases ex <;> simp [isPosInt] at h
    rename_i q
    refine grows_pow ?_ hg
    exact h.2.2.le
  | fn f l ih => simp [isNonDecPoly, hx] at h
  | binder k i lo up body => simp [isNonDecPoly] at h

/-- The test for other functions. -/
theorem grows_noPoly (e : Expr) (h : isNonDecNoPoly x e = true) (hs : Safe ξ ρ x e) : Grows (val ξ ρ x e) 1 := by
  induction e using Expr.ind with
  | add l ih =>
    rw [isNonDecNoPoly] at h
    split_ifs at h with hp
    · exact grows_poly _ h hs 1
    · simp only [List.all_map, List.all_eq_true] at h
      refine grows_sum l fun a ha => ?_
      have := h a ha
      simp at this
      exact ih a ha this.2 (safe_mem (Or.inl rfl) hs ha)
  | mul l ih =>
    rw [isNonDecNoPoly] at h
    split_ifs at h with hp
    · exact grows_poly _ h hs 1
    · simp only [List.all_map, List.all_eq_true] at h
      refine grows_prod l fun a ha => ?_
      have := h a ha
      simp at this
      exact ih a ha this (safe_mem (Or.inr rfl) hs ha)
  | pow b ex ihb ihe =>
    rw [isNonDecNoPoly] at h
    split_ifs at h with hp
    · exact grows_poly _ h hs 1
    · have key : ∀ (hne : ∀ q, ex ≠ .num q), (isPolynomial x b && isPolynomial x ex && isNonDecPoly x b &&
          isNonDecPoly x ex) = true → Grows (val ξ ρ x (.pow b ex)) 1 := by
        intro hne h
        simp only [Bool.and_eq_true] at h
        obtain ⟨c1, c2⟩ := (hs.2 _ (.refl _)).2.2 b ex rfl hne
        have sb : Safe ξ ρ x b := by
          refine ⟨fun hf => ?_, fun s hsb => hs.2 s (.powB hsb)⟩
          have := c1 1 le_rfl
          rw [val_noSym hf] at this
          linarith
        have se : Safe ξ ρ x ex := ⟨c2, fun s hse => hs.2 s (.powE hse)⟩
        exact grows_expo c1 (grows_poly _ h.1.2 sb 1) (grows_poly _ h.2 se 1)
      cases ex with
      | num k =>
        simp only [nonDecPower] at h
        by_cases h1 : b = .sym x ∧ 0 < k
        · obtain ⟨rfl, hk⟩ := h1
          exact grows_pow hk.le (grows_var 1)
        · exfalso
          have h2 : isPolynomial x b = true ∧ isPosInt (.num k) = true := by
            rw [Bool.or_eq_true, Bool.and_eq_true, Bool.and_eq_true] at h
            rcases h with h | h
            · simp at h; exact absurd h h1
            · exact h
          apply hp
          rw [isPolynomial]
          split_ifs
          · rfl
          · rfl
          · simp [h2.1, h2.2]
      | _ => exact key (by simp) (by simpa only [nonDecPower] using h)
  | fn f l ih =>
    by_cases hf : f = .log
    · subst hf
      by_cases hp : isPolynomial x (.fn .log l) = true
      · rw [isNonDecNoPoly, if_pos hp] at h
        exact grows_poly _ h hs 1
      · obtain ⟨a, rfl, ha⟩ := (hs.2 _ (.refl _)).2.1 l rfl
        intro m m' hm hmm
        have e : ∀ k, val ξ ρ x (.fn .log [a]) k = Real.log (val ξ ρ x a k) := fun k => by
          simp [val, eval, realInterp, realFn]
        obtain ⟨h1, h2⟩ := ha m m' hm hmm
        rw [e, e]
        exact ⟨Real.log_nonneg h1, Real.log_le_log (by linarith) h2⟩
    · exact grows_poly _ (by simp [isNonDecNoPoly, hf] at h; simpa using h.2) hs 1
  | num q => exact grows_poly _ (by simp [isNonDecNoPoly] at h; simpa using h.2) hs 1
  | const q => exact grows_poly _ (by simp [isNonDecNoPoly] at h; simpa using h.2) hs 1
  | sym q => exact grows_poly _ (by simp [isNonDecNoPoly] at h; simpa using h.2) hs 1
  | binder => exact grows_poly _ (by simp [isNonDecNoPoly] at h; simpa using h.2) hs 1

/-! ## The claims -/

theorem nonNeg_spec {E : Env} {fuel : ℕ} {e : Expr} {z c : ℤ} (hz : -1 ≤ z) (h : isNonNegative E x fuel e z = (true, c)) :
    0 ≤ c ∧ (findDomain E x fuel e z).2 ≤ c := by
  have hm : ∀ (e : Expr) (z : ℤ), z ≤ (findDomain E x fuel e z).2 := by
    intro e z
    unfold findDomain bothDom
    split_ifs
    · exact le_trans (C58_monotone E x fuel _ z) (C58_monotone E x fuel _ _)
    · exact C58_monotone E x fuel _ z
  unfold isNonNegative at h
  have := hm e z
  by_cases hr : (findDomain E x fuel e z).1 = true
  · simp only [hr, if_true, Prod.mk.injEq, true_and] at h
    split_ifs at h <;> omega
  · simp only [hr] at h
    simp at h
    rw [h] at hr
    simp at hr

theorem grows_base {base : ℚ} (hb : 1 ≤ base) {f : ℕ → ℝ} {s : ℕ} (h : Grows f s) :
    Grows (fun m => (base : ℝ) ^ m * f m) s := by
  have hb' : (1 : ℝ) ≤ base := by exact_mod_cast hb
  exact grows_mul (fun m m' _ hmm => ⟨by positivity, pow_le_pow_right₀ hb' hmm⟩) h

/-- **C57** (partial: on the condition `Safe` and for bases that are at least 1; refuted without by `C57_sign_refuted` and
`C57_base_refuted`).  When the inhomogeneous part `base^n * e` is accepted directly, it is not negative and does not
decrease from the returned condition on (for functions that are not polynomials, and not before 1). -/
theorem C57_accepts_partial {E : Env} {simp : Expr → Expr} {fuel : ℕ} {base : ℚ} {e : Expr} {poly : Bool} {z c : ℤ}
    (h : nnnd E simp x fuel base e poly z = (true, c)) (hz : -1 ≤ z) (hb : 1 ≤ base) (hs : Safe ξ ρ x e)
    (hp : poly = true → isNonDecPoly x e = true) :
    0 ≤ c ∧ Grows (fun m => (base : ℝ) ^ m * val ξ ρ x e m) (if poly then c.toNat else max 1 c.toNat) := by
  unfold nnnd at h
  rw [if_neg (by simp; linarith)] at h
  dsimp only at h
  cases poly with
  | true =>
    simp only [if_true, hp] at h
    split_ifs at h with h1
    · exact ⟨(nonNeg_spec hz h).1, grows_base hb (grows_poly e (hp rfl) hs _)⟩
    · rw [h] at h1; simp at h1
  | false =>
    simp only [Bool.false_eq_true, if_false] at h
    split_ifs at h with h1
    · simp only [Prod.mk.injEq] at h
      refine ⟨?_, grows_base hb fun m m' hm hmm => grows_noPoly e h.1 hs m m' (by simp at hm; omega) hmm⟩
      exact (nonNeg_spec hz (Prod.ext h1 h.2)).1
    · rw [h] at h1; simp at h1

open Polynomial Filter in
/-- A polynomial that does not decrease on the natural numbers from `c` on and has no real zero beyond `c` is not negative
there, unless it is constant. -/
theorem nonneg_of_no_root {P : ℝ[X]} (hd : 0 < P.degree) {c : ℕ} (hmon : ∀ m : ℕ, c ≤ m → P.eval (m : ℝ) ≤ P.eval ((m + 1 : ℕ) : ℝ))
    (hr : ∀ v : ℝ, P.eval v = 0 → v ≤ c) (m : ℕ) (hm : c ≤ m) : 0 ≤ P.eval (m : ℝ) := by
  by_contra hneg
  have hneg := not_le.1 hneg
  have mono : ∀ k : ℕ, P.eval (m : ℝ) ≤ P.eval ((m + k : ℕ) : ℝ) := by
    intro k
    induction k with
    | zero => simp
    | succ k ih => exact le_trans ih (hmon (m + k) (by omega))
  rcases le_total 0 P.leadingCoeff with hl | hl
  · have ht := P.tendsto_atTop_of_leadingCoeff_nonneg hd hl
    obtain ⟨w, hw1, hw2⟩ := ((tendsto_atTop.1 ht 1).and (eventually_ge_atTop ((m : ℝ) + 1))).exists
    have hIVT := intermediate_value_Icc (show (m : ℝ) ≤ w by linarith) (P.continuous.continuousOn)
    obtain ⟨v, ⟨hv1, hv2⟩, hv⟩ := hIVT (show (0 : ℝ) ∈ Set.Icc _ _ from ⟨hneg.le, by linarith⟩)
    have := hr v hv
    have hmc : (c : ℝ) ≤ m := by exact_mod_cast hm
    have : v = m := le_antisymm (by linarith) hv1
    rw [this] at hv
    have hv : P.eval (m : ℝ) = 0 := hv
    linarith
  · have ht := P.tendsto_atBot_of_leadingCoeff_nonpos hd hl
    have ht' : Tendsto (fun k : ℕ => P.eval ((m + k : ℕ) : ℝ)) atTop atBot := by
      refine ht.comp ?_
      exact tendsto_natCast_atTop_atTop.comp (tendsto_add_atTop_nat m |>.congr fun k => by ring)
    obtain ⟨k, hk⟩ := (tendsto_atBot.1 ht' (P.eval (m : ℝ) - 1)).exists
    have := mono k
    linarith

/-- **C57** (partial: on the same conditions for the difference, and if the search finds all real roots; refuted without by
`C57_roots_refuted`).  When a polynomial is accepted because of the difference of two consecutive values, then the
inhomogeneous part is not negative and does not decrease from the returned condition on. -/
theorem C57_difference_partial {E : Env} {simp : Expr → Expr} {fuel : ℕ} {base : ℚ} {e : Expr} {z c : ℤ}
    (h : nnnd E simp x (fuel + 1) base e true z = (true, c)) (hz : -1 ≤ z) (hb : 1 ≤ base)
    (hne : isNonDecPoly x e = false) (hi : idxNe x e = true)
    (hsimp : ∀ m, val ξ ρ x (simp (subE (substitute (.sym x) (addE (.sym x) (.num 1)) e) e)) m =
      val ξ ρ x (subE (substitute (.sym x) (addE (.sym x) (.num 1)) e) e) m)
    (hs : Safe ξ ρ x (simp (subE (substitute (.sym x) (addE (.sym x) (.num 1)) e) e)))
    (hx : has (.sym x) e = true) (hp : isPolynomial x e = true) (hr : isRatPolynomial x e = true) (hnum : E.num e = e)
    {rs : List ℚ} (hrs : E.roots e = some rs)
    (hroots : ∀ v : ℝ, eval (realInterp ξ) (update ρ x v) e = 0 → ∃ q ∈ rs, v ≤ (q : ℝ))
    (hcon : ∃ v w : ℝ, eval (realInterp ξ) (update ρ x v) e ≠ eval (realInterp ξ) (update ρ x w) e) :
    0 ≤ c ∧ Grows (fun m => (base : ℝ) ^ m * val ξ ρ x e m) c.toNat := by
  unfold nnnd at h
  rw [if_neg (by simp; linarith)] at h
  simp only [if_true, hne, Bool.false_eq_true, if_false] at h
  by_cases h1 : (isNonNegative E x (fuel + 1) e z).1 = true
  · rw [if_pos h1] at h
    obtain ⟨c0, hc0⟩ : ∃ c0, (isNonNegative E x (fuel + 1) e z).2 = c0 := ⟨_, rfl⟩
    obtain ⟨g1, g2⟩ := nonNeg_spec hz (Prod.ext h1 hc0)
    unfold nnndSecond at h
    rw [if_neg (by simp; linarith)] at h
    dsimp only at h
    generalize hd : simp (subE (substitute (.sym x) (addE (.sym x) (.num 1)) e) e) = d at *
    by_cases h2 : (isNonNegative E x (fuel + 1) d (isNonNegative E x (fuel + 1) e z).2).1 = true
    · rw [if_pos h2] at h
      simp only [Prod.mk.injEq] at h
      obtain ⟨k1, k2⟩ := nonNeg_spec (by omega) (Prod.ext h2 h.2)
      have hcc : c0 ≤ c := by
        refine le_trans ?_ k2
        rw [← hc0]
        unfold findDomain bothDom
        split_ifs
        · exact le_trans (C58_monotone E x (fuel + 1) _ _) (C58_monotone E x (fuel + 1) _ _)
        · exact C58_monotone E x (fuel + 1) _ _
      have hrc : ∀ q ∈ rs, q ≤ (c : ℚ) := by
        intro q hq
        have he : exDom E x (fuel + 1) e z = (true, rs.foldr (fun r z => raise z r) z) := by
          simp [exDom, hx, hp, polyDom, hr, hrs]
        have q1 := (fold_raise rs z).2.1 q hq
        have q2 : rs.foldr (fun r z => raise z r) z ≤ (findDomain E x (fuel + 1) e z).2 := by
          unfold findDomain bothDom
          rw [hnum, he]
          simp only [if_true]
          exact C58_monotone E x (fuel + 1) _ _
        have q3 : rs.foldr (fun r z => raise z r) z ≤ c := by omega
        exact le_trans q1 (by exact_mod_cast q3)
      obtain ⟨P, hP⟩ := C21_polynomial_sound (realInterp ξ) x e hp ρ
      simp only [Polynomial.aeval_def, Polynomial.eval₂_eq_eval_map, Algebra.algebraMap_self, Polynomial.map_id] at hP
      have hv : ∀ m : ℕ, val ξ ρ x e m = P.eval (m : ℝ) := fun m => hP m
      have hmon : ∀ m : ℕ, val ξ ρ x e m ≤ val ξ ρ x e (m + 1) := by
        intro m
        have g := (grows_poly d h.1 hs 0 m m (Nat.zero_le _) le_rfl).1
        rw [hsimp] at g
        unfold val at g ⊢
        rw [eval_subE, show addE (.sym x) (.num 1) = shiftN x 1 from rfl, eval_subst_shift (realInterp ξ) hi 1 ρ (m : ℝ)] at g
        push_cast at g ⊢
        linarith
      have hdeg : 0 < P.degree := by
        by_contra hdg
        have hC := Polynomial.eq_C_of_degree_le_zero (not_lt.1 hdg)
        obtain ⟨v, w, hvw⟩ := hcon
        rw [hP, hP, hC, Polynomial.eval_C, Polynomial.eval_C] at hvw
        exact hvw rfl
      have hcn : ((c.toNat : ℕ) : ℤ) = c := Int.toNat_of_nonneg k1
      have hnn := nonneg_of_no_root hdeg (c := c.toNat) (fun m _ => by rw [← hv, ← hv]; exact hmon m) (by
        intro v hv0
        obtain ⟨q, hq, hvq⟩ := hroots v (by rw [hP]; exact hv0)
        have := hrc q hq
        have h3 : (q : ℝ) ≤ (c : ℝ) := by exact_mod_cast this
        have h4 : ((c.toNat : ℕ) : ℝ) = (c : ℝ) := by exact_mod_cast hcn
        rw [h4]; linarith)
      refine ⟨k1, grows_base hb fun m m' hm hmm => ⟨by rw [hv]; exact hnn m hm, ?_⟩⟩
      exact monotone_nat_of_le_succ hmon hmm
    · rw [if_neg h2] at h
      rw [h] at h2; simp at h2
  · rw [if_neg h1] at h
    rw [h] at h1; simp at h1

/-! ### Refutations -/

/-- `-n` is accepted, although it is negative and decreases. -/
theorem C57_sign_refuted (E : Env) (simp : Expr → Expr) (fuel : ℕ) (ξ : ℝ → ℝ) (ρ : String → ℝ)
    (hn : E.num (.mul [.num (-1), .sym x]) = .mul [.num (-1), .sym x]) (hd : E.den (.mul [.num (-1), .sym x]) = .num 1)
    (hr : E.roots (.mul [.num (-1), .sym x]) = some [0]) :
    nnnd E simp x (fuel + 1) 1 (.mul [.num (-1), .sym x]) true (-1) = (true, 0) ∧
    ∀ m : ℕ, val ξ ρ x (.mul [.num (-1), .sym x]) m = -(m : ℝ) := by
  constructor
  · simp [nnnd, isNonNegative, findDomain, bothDom, exDom, hn, hd, hr, has, isPolynomial, isScalarRep, polyDom,
      isRatPolynomial, isRatScalarRep, raise, isNonDecPoly]
  · intro m; simp [val, eval]

/-- The base `1/2` is accepted, although `(1/2)^n` decreases. -/
theorem C57_base_refuted (E : Env) (simp : Expr → Expr) (fuel : ℕ) (hn : E.num (.num 1) = .num 1) (hd : E.den (.num 1) = .num 1) :
    nnnd E simp x (fuel + 1) (1 / 2) (.num 1) true (-1) = (true, 0) ∧
    ∀ m : ℕ, ((1 / 2 : ℚ) : ℝ) ^ (m + 1) * 1 < ((1 / 2 : ℚ) : ℝ) ^ m * 1 := by
  constructor
  · simp [nnnd, isNonNegative, findDomain, bothDom, exDom, hn, hd, has, isNonDecPoly]
  · intro m
    push_cast
    rw [pow_succ]
    have : (0 : ℝ) < (1 / 2) ^ m := by positivity
    linarith

/-- `n² - 2`, with no rational root, is accepted because of its difference `2 n + 1` with the condition 0, although it is
negative at 0 and at 1. -/
theorem C57_roots_refuted (E : Env) (simp : Expr → Expr) (fuel : ℕ) (ξ : ℝ → ℝ) (ρ : String → ℝ)
    (hn : ∀ e, E.num e = e) (hd : ∀ e, E.den e = .num 1) (hr : E.roots (nSqMinus2 x) = some [])
    (hr' : E.roots (.add [.mul [.num 2, .sym x], .num 1]) = some [-1/2])
    (hs : simp (subE (substitute (.sym x) (addE (.sym x) (.num 1)) (nSqMinus2 x)) (nSqMinus2 x)) =
      .add [.mul [.num 2, .sym x], .num 1]) :
    nnnd E simp x (fuel + 1) 1 (nSqMinus2 x) true (-1) = (true, 0) ∧ val ξ ρ x (nSqMinus2 x) 0 = -2 ∧
    val ξ ρ x (nSqMinus2 x) 1 = -1 := by
  have p1 : isNonDecPoly x (nSqMinus2 x) = false := by simp [nSqMinus2, isNonDecPoly, nonPosNum]
  have p2 : isNonNegative E x (fuel + 1) (nSqMinus2 x) (-1) = (true, 0) := by
    have i1 : has (.sym x) (nSqMinus2 x) = true := by simp [nSqMinus2, has]
    have i2 : isPolynomial x (nSqMinus2 x) = true := by simp [nSqMinus2, isPolynomial, isScalarRep, isPosInt]
    simp [isNonNegative, findDomain, bothDom, exDom, hn, hd, i1, i2, polyDom, hr, has]
  have hc : ⌈(-1 / 2 : ℚ)⌉ = 0 := by rw [Int.ceil_eq_iff]; norm_num
  refine ⟨?_, by rw [val_nSqMinus2]; norm_num, by rw [val_nSqMinus2]; norm_num⟩
  have p3 : isNonNegative E x (fuel + 1) (.add [.mul [.num 2, .sym x], .num 1]) 0 = (true, 0) := by
    simp [isNonNegative, findDomain, bothDom, exDom, hn, hd, hr', has, isPolynomial, isScalarRep, polyDom,
      isRatPolynomial, isRatScalarRep, raise, hc]
  have p4 : isNonDecPoly x (.add [.mul [.num 2, .sym x], .num 1]) = true := by simp [isNonDecPoly, nonPosNum]
  simp [nnnd, p1, p2, hs, nnndSecond, p3, p4]

/-- `n log(n)` is accepted as it stands, with the condition 1. -/
theorem C57_nonvacuous (ξ : ℝ → ℝ) (ρ : String → ℝ) (fuel : ℕ) :
    ∃ E : Env, nnnd E id "n" (fuel + 3) 1 (.mul [.sym "n", .fn .log [.sym "n"]]) false (-1) = (true, 1) ∧
      Safe ξ ρ "n" (.mul [.sym "n", .fn .log [.sym "n"]]) := by
  refine ⟨⟨id, fun _ => .num 1, fun e => if e = .sym "n" then some [0] else some [1]⟩, ?_, ?_, ?_⟩
  · simp [nnnd, isNonNegative, findDomain, bothDom, exDom, has, isPolynomial, isScalarRep, otherDom, loopDom, logDom, subE,
      negE, mulE, addE, polyDom, isRatPolynomial, isRatScalarRep, raise, isNonDecNoPoly, isNonDecPoly]
  · intro h; simp [has] at h
  · intro s hs
    have hcases : s = .mul [.sym "n", .fn .log [.sym "n"]] ∨ s = .sym "n" ∨ s = .fn .log [.sym "n"] := by
      cases hs with
      | refl => simp
      | mul ha h =>
        simp at ha
        rcases ha with rfl | rfl
        · cases h; simp
        · cases h with
          | refl => simp
          | fn ha h => simp at ha; subst ha; cases h; simp
    rcases hcases with rfl | rfl | rfl
    · refine ⟨fun l hl a ha hf => ?_, by simp, by simp⟩
      simp at hl; subst hl
      simp at ha
      rcases ha with rfl | rfl <;> simp [has] at hf
    · simp
    · refine ⟨by simp, fun l hl => ⟨.sym "n", by simpa using hl.symm, fun m m' hm hmm => ?_⟩, by simp⟩
      simp only [val, eval, update_self]
      exact ⟨by exact_mod_cast hm, by exact_mod_cast hmm⟩

/-- `n² - 4` meets the hypotheses of `C57_difference_partial`: it is accepted because of `2 n + 1`, with the condition 2. -/
theorem C57_difference_nonvacuous (ξ : ℝ → ℝ) (ρ : String → ℝ) (fuel : ℕ) :
    ∃ (E : Env) (simp : Expr → Expr) (e : Expr) (rs : List ℚ), e = .add [.pow (.sym "n") (.num 2), .num (-4)] ∧
      nnnd E simp "n" (fuel + 1) 1 e true (-1) = (true, 2) ∧ isNonDecPoly "n" e = false ∧ idxNe "n" e = true ∧
      (∀ m, val ξ ρ "n" (simp (subE (substitute (.sym "n") (addE (.sym "n") (.num 1)) e) e)) m =
        val ξ ρ "n" (subE (substitute (.sym "n") (addE (.sym "n") (.num 1)) e) e) m) ∧
      Safe ξ ρ "n" (simp (subE (substitute (.sym "n") (addE (.sym "n") (.num 1)) e) e)) ∧
      has (.sym "n") e = true ∧ isPolynomial "n" e = true ∧ isRatPolynomial "n" e = true ∧ E.num e = e ∧
      E.roots e = some rs ∧ (∀ v : ℝ, eval (realInterp ξ) (update ρ "n" v) e = 0 → ∃ q ∈ rs, v ≤ (q : ℝ)) ∧
      ∃ v w : ℝ, eval (realInterp ξ) (update ρ "n" v) e ≠ eval (realInterp ξ) (update ρ "n" w) e := by
  have hv : ∀ v : ℝ, eval (realInterp ξ) (update ρ "n" v) (.add [.pow (.sym "n") (.num 2), .num (-4)]) = v ^ 2 - 4 := by
    intro v
    simp only [eval, List.map_cons, List.map_nil, List.sum_cons, List.sum_nil, update_self, realInterp]
    norm_num
    ring
  have hi : idxNe "n" (.add [.pow (.sym "n") (.num 2), .num (-4)]) = true := by simp [idxNe]
  refine ⟨⟨id, fun _ => .num 1, fun e => if e = .add [.pow (.sym "n") (.num 2), .num (-4)] then some [2, -2] else some [-1/2]⟩,
    fun _ => .add [.mul [.num 2, .sym "n"], .num 1], _, [2, -2], rfl, ?_, ?_, hi, ?_, ?_, ?_, ?_, ?_, rfl, by simp, ?_, 0, 1, ?_⟩
  · have hc : ⌈(-1 / 2 : ℚ)⌉ = 0 := by rw [Int.ceil_eq_iff]; norm_num
    have hc2 : ⌈(-2 : ℚ)⌉ = -2 := by rw [Int.ceil_eq_iff]; norm_num
    simp [nnnd, isNonNegative, findDomain, bothDom, exDom, has, isPolynomial, isScalarRep, polyDom, isRatPolynomial,
      isRatScalarRep, raise, isNonDecPoly, nonPosNum, isPosInt, nnndSecond, hc, hc2]
  · simp [isNonDecPoly, nonPosNum]
  · intro m
    unfold val
    rw [eval_subE, show addE (.sym "n") (.num 1) = shiftN "n" 1 from rfl, eval_subst_shift (realInterp ξ) hi 1 ρ (m : ℝ), hv, hv]
    simp [eval]
    ring
  · refine ⟨fun h => by simp [has] at h, fun s hs => ?_⟩
    have hcases : s = .add [.mul [.num 2, .sym "n"], .num 1] ∨ s = .mul [.num 2, .sym "n"] ∨ s = .sym "n" ∨ ∃ q, s = .num q := by
      cases hs with
      | refl => simp
      | add ha h =>
        simp at ha
        rcases ha with rfl | rfl
        · cases h with
          | refl => simp
          | mul ha h =>
            simp at ha
            rcases ha with rfl | rfl <;> cases h <;> simp
        · cases h; simp
    rcases hcases with rfl | rfl | rfl | ⟨q, rfl⟩
    · refine ⟨fun l hl a ha hf => ?_, by simp, by simp⟩
      simp at hl; subst hl
      simp at ha
      rcases ha with rfl | rfl
      · simp [has] at hf
      · simp [eval]
    · refine ⟨fun l hl a ha hf => ?_, by simp, by simp⟩
      simp at hl; subst hl
      simp at ha
      rcases ha with rfl | rfl
      · simp [eval]
      · simp [has] at hf
    · simp
    · simp
  · simp [has]
  · simp [isPolynomial, isScalarRep, isPosInt]
  · simp [isRatPolynomial, isRatScalarRep, isPosInt]
  · intro v h
    rw [hv] at h
    refine ⟨2, by simp, ?_⟩
    push_cast
    nlinarith [sq_nonneg (v - 2)]
  · rw [hv, hv]; norm_num

end Purrs.Functional
