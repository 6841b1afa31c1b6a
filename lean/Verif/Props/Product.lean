import Verif.Model.Product
import Verif.Props.EvalRulesSym
import Verif.Props.VerifyWA
import Verif.Props.SumPoly
import Verif.Props.Decomp

/-!
# C53: closed forms of products

The specification: the answer has, at `n = N`, the value of the product of `e(k)` over the integers `lower ≤ k ≤ N`.
-/

set_option linter.unusedSectionVars false

namespace Purrs.Product

open Purrs Purrs.EvalRules Purrs.OrderRed Purrs.WeightedAvg
open Function (update update_of_ne update_self update_comm)
open Finset (Icc range)

variable (O : Ops) (V : Names) (lower : ℤ) (ξ : ℝ → ℝ) (ρ : String → ℝ) (N : ℕ)

/-- The value of the product of `e` over `lower ≤ k ≤ N`. -/
noncomputable def prodVal (e : Expr) : ℝ := ∏ k ∈ Icc lower (N : ℤ), eval (realInterp ξ) (update ρ V.k (k : ℝ)) e

/-- The symbols of sums and products inside `e` are different from the index and the fresh symbol, which does not occur. -/
def Wf (e : Expr) : Prop := idxNe V.k e = true ∧ idxNe V.h e = true ∧ has (.sym V.h) e = false

/-- `a^b1 a^b2 = a^(b1+b2)` applies: the base is positive, or it is not zero and the exponents are integers. -/
def PowOk (a : ℝ) (b : ℤ → ℝ) : Prop := 0 < a ∨ a ≠ 0 ∧ ∀ k, ∃ z : ℤ, b k = z

/-- A power with a constant base is multiplied properly: the products start from `1`, the exponent is a sum of polynomials times
exponentials whose coefficients are found. -/
def ExpFine (base x : Expr) : Prop :=
  lower = 1 ∧ PowOk (eval (realInterp ξ) ρ base) (fun k => eval (realInterp ξ) (update ρ V.k (k : ℝ)) x) ∧
  (∀ v : ℝ, eval (realInterp ξ) (update ρ V.k v) (O.expand x) = eval (realInterp ξ) (update ρ V.k v) x) ∧
  ∀ t ∈ expPolyDecomposition V.k (O.expand x),
    (∀ v : ℝ, eval (realInterp ξ) (update ρ V.k v) t.2.2 = 0) ∧ Coeffs V.y (O.coeffs t.2.1) ∧
    (∀ v : ℝ, polyVal (realInterp ξ) ρ (O.coeffs t.2.1) v = eval (realInterp ξ) (update ρ V.k v) t.2.1) ∧
    (t.1 = .num 1 ∨ eval (realInterp ξ) ρ t.1 ≠ 1) ∧ idxNe V.k t.2.1 = true ∧ idxNe V.y t.2.1 = true ∧ has (.sym V.y) t.2.1 = false

/-- The conditions for the cases of the recursion. -/
def FineCase (Fine : Expr → Prop) : Expr → Prop
  | .add [a, b] => ∀ c, shiftOf V a b = some c → c.den = 1 ∧ (-c < lower ∨ -c ≤ N)
  | .add l =>
      (O.content (.add l) = .num 1 ∨
        (∀ v : ℝ, eval (realInterp ξ) (update ρ V.k v) (.add l) =
          eval (realInterp ξ) (update ρ V.k v) (O.primpart (.add l)) * eval (realInterp ξ) (update ρ V.k v) (O.content (.add l))) ∧
        Fine (O.primpart (.add l)) ∧ Fine (O.content (.add l))) ∧
      (O.denom (.add l) = .num 1 ∨
        (∀ v : ℝ, eval (realInterp ξ) (update ρ V.k v) (.add l) =
          eval (realInterp ξ) (update ρ V.k v) (O.numer (.add l)) / eval (realInterp ξ) (update ρ V.k v) (O.denom (.add l))) ∧
        Fine (O.numer (.add l)) ∧ Fine (O.denom (.add l)))
  | .pow b x => (has (.sym V.k) b = true → Fine b ∧
        ∀ q, x = .num q → q.den = 1 ∨ ∀ k ∈ Icc lower (N : ℤ), 0 ≤ eval (realInterp ξ) (update ρ V.k (k : ℝ)) b) ∧
      (has (.sym V.k) b = false → (∃ t ∈ expPolyDecomposition V.k (O.expand x), t.2.1 ≠ .num 0) → ExpFine O V lower ξ ρ b x)
  | .mul l => ∀ a ∈ l, Fine a
  | _ => True

/-- The conditions under which the closed form is right, with the fuel of the recursion. -/
def Fine : ℕ → Expr → Prop
  | 0, _ => True
  | fuel + 1, e => has (.sym V.k) e = true → Wf V e ∧ FineCase O V lower ξ ρ N (Fine fuel) e

/-- Equality of canonical forms implies equality of values. -/
def SameOk : Prop := ∀ a b, O.same a b = true → ∀ ρ : String → ℝ, eval (realInterp ξ) ρ a = eval (realInterp ξ) ρ b

/-! ### Products of linear polynomials -/

theorem prod_shift (lo : ℤ) (a : ℕ) (c : ℤ) (h : lo + c = a + 1) (N : ℕ) :
    ∏ k ∈ Icc lo (N : ℤ), ((k : ℝ) + c) = ((a + (N + 1 - lo).toNat).factorial : ℝ) / a.factorial := by
  rw [prod_Icc_range (fun k : ℤ => (k : ℝ) + c)]
  have h1 : ((N : ℤ) - lo + 1).toNat = (N + 1 - lo).toNat := by congr 1; ring
  rw [h1]
  have h2 : ∀ m : ℕ, ∏ k ∈ range m, (((lo + (k : ℕ) : ℤ) : ℝ) + c) = ((a + m).factorial : ℝ) / a.factorial := by
    intro m
    have hf : (a.factorial : ℝ) ≠ 0 := by exact_mod_cast a.factorial_ne_zero
    rw [eq_div_iff hf]
    induction m with
    | zero => simp
    | succ m ih =>
      rw [Finset.prod_range_succ, mul_right_comm, ih, ← Nat.add_assoc, Nat.factorial_succ]
      have : ((lo + (m : ℕ) : ℤ) : ℝ) + c = (a + m + 1 : ℕ) := by
        have : (lo + (m : ℕ) : ℤ) + c = (a + m + 1 : ℕ) := by push_cast; linarith
        exact_mod_cast this
      rw [this]
      push_cast
      ring
  exact h2 _

theorem prod_odd_plus (N : ℕ) : ∏ k ∈ range N, (2 * ((k : ℝ) + 1) + 1) = (2 * N + 1).factorial / (2 ^ N * N.factorial) := by
  induction N with
  | zero => simp
  | succ N ih =>
    rw [Finset.prod_range_succ, ih, show 2 * (N + 1) + 1 = 2 * N + 1 + 1 + 1 by ring, Nat.factorial_succ (2 * N + 1 + 1), Nat.factorial_succ (2 * N + 1),
      Nat.factorial_succ N]
    have h1 : (N.factorial : ℝ) ≠ 0 := by exact_mod_cast N.factorial_ne_zero
    have h2 : (N : ℝ) + 1 ≠ 0 := by positivity
    push_cast
    field_simp
    ring

theorem prod_odd_minus (N : ℕ) : ∏ k ∈ range N, (2 * ((k : ℝ) + 1) - 1) = (2 * N).factorial / (2 ^ N * N.factorial) := by
  induction N with
  | zero => simp
  | succ N ih =>
    rw [Finset.prod_range_succ, ih, show 2 * (N + 1) = 2 * N + 1 + 1 by ring, Nat.factorial_succ, Nat.factorial_succ (2 * N),
      Nat.factorial_succ N]
    have h1 : (N.factorial : ℝ) ≠ 0 := by exact_mod_cast N.factorial_ne_zero
    have h2 : (N : ℝ) + 1 ≠ 0 := by positivity
    push_cast
    field_simp
    ring

theorem prod_triple (N : ℕ) : ∏ k ∈ range N, ((2 : ℝ) + -9 * ((k : ℝ) + 1) + 9 * ((k : ℝ) + 1) ^ 2) =
    ((3 * N).factorial : ℝ) / (3 ^ N * N.factorial) := by
  induction N with
  | zero => simp
  | succ N ih =>
    rw [Finset.prod_range_succ, ih, show 3 * (N + 1) = 3 * N + 1 + 1 + 1 by ring, Nat.factorial_succ (3 * N + 1 + 1), Nat.factorial_succ (3 * N + 1),
      Nat.factorial_succ (3 * N), Nat.factorial_succ N]
    have h1 : (N.factorial : ℝ) ≠ 0 := by exact_mod_cast N.factorial_ne_zero
    have h2 : (N : ℝ) + 1 ≠ 0 := by positivity
    push_cast
    field_simp
    ring

/-! ### Values of the pieces -/

theorem idxNe_subst {n s : String} {r : Expr} (hr : idxNe n r = true) {e : Expr} (he : idxNe n e = true) (hk : idxNe s e = true) :
    idxNe n (substitute (.sym s) r e) = true := by
  induction e using Expr.ind with
  | num q => simp [substitute, idxNe]
  | const q => simp [substitute, idxNe]
  | sym t => rw [substitute]; split <;> simp_all [idxNe]
  | add l ih =>
    simp [idxNe] at he hk
    rw [substitute, if_neg (by simp)]
    have : ∀ m : List Expr, (∀ a ∈ m, a ∈ l) →
        idxNe n (m.foldr (fun a acc => addE acc (substitute (.sym s) r a)) (.num 0)) = true := by
      intro m hm
      induction m with
      | nil => simp [idxNe]
      | cons a m ihm =>
        exact idxNe_addE (ihm fun b hb => hm b (List.mem_cons_of_mem _ hb))
          (ih a (hm a List.mem_cons_self) (he a (hm a List.mem_cons_self)) (hk a (hm a List.mem_cons_self)))
    exact this l fun a ha => ha
  | mul l ih =>
    simp [idxNe] at he hk
    rw [substitute, if_neg (by simp)]
    have : ∀ m : List Expr, (∀ a ∈ m, a ∈ l) →
        idxNe n (m.foldr (fun a acc => mulE acc (substitute (.sym s) r a)) (.num 1)) = true := by
      intro m hm
      induction m with
      | nil => simp [idxNe]
      | cons a m ihm =>
        exact idxNe_mulE (ihm fun b hb => hm b (List.mem_cons_of_mem _ hb))
          (ih a (hm a List.mem_cons_self) (he a (hm a List.mem_cons_self)) (hk a (hm a List.mem_cons_self)))
    exact this l fun a ha => ha
  | pow b e ihb ihe =>
    simp [idxNe] at he hk
    rw [substitute, if_neg (by simp)]
    exact idxNe_powE (ihb he.1 hk.1) (ihe he.2 hk.2)
  | fn f l ih =>
    simp [idxNe] at he hk
    rw [substitute, if_neg (by simp)]
    simp [idxNe]
    exact fun a ha => ih a ha (he a ha) (hk a ha)
  | binder k i a b c hi ha hb hc =>
    cases i with
    | sym t =>
      simp [idxNe] at he hk
      obtain ⟨⟨⟨h1, h2⟩, h3⟩, h4⟩ := he
      obtain ⟨⟨⟨k1, k2⟩, k3⟩, k4⟩ := hk
      rw [substitute, if_neg (by simp)]
      have e1 : substitute (.sym s) r (.sym t) = .sym t := by simp [substitute, k1]
      simp [idxNe, e1, h1, ha h2 k2, hb h3 k3, hc h4 k4]
    | _ => simp [idxNe] at he

theorem eval_quo (σ : String → ℝ) (a b : Expr) : eval (realInterp ξ) σ (quo a b) = eval (realInterp ξ) σ a / eval (realInterp ξ) σ b := by
  unfold quo
  rw [eval_mulE, eval_powE]
  simp only [eval]
  rw [show (((-1 : ℚ)) : ℝ) = ((-1 : ℤ) : ℝ) by push_cast; rfl, (realInterp ξ).pw_int, zpow_neg_one, div_eq_mul_inv]

theorem eval_fact (σ : String → ℝ) (a : Expr) (m : ℕ) (h : eval (realInterp ξ) σ a = m) :
    eval (realInterp ξ) σ (.fn .factorial [a]) = m.factorial := by
  simp only [eval, List.map_cons, List.map_nil, h]
  simp [realInterp, realFn, Real.Gamma_nat_eq_factorial]

theorem factNum_val {q : ℚ} {d : Expr} (h : factNum q = some d) (σ : String → ℝ) :
    ∃ m : ℕ, q = m ∧ eval (realInterp ξ) σ d = m.factorial := by
  unfold factNum at h
  split_ifs at h with hq
  obtain rfl := Option.some.inj h
  refine ⟨q.num.toNat, ?_, by simp [eval]⟩
  have h2 : ((q.num.toNat : ℤ) : ℚ) = q := by
    rw [Int.toNat_of_nonneg (Rat.num_nonneg.mpr hq.2)]
    exact (Rat.den_eq_one_iff q).mp hq.1
  exact_mod_cast h2.symm

section
variable {ρ N lower} (hn : ρ V.n = (N : ℝ)) (hlo : lower ≤ (N : ℤ) + 1)
include hn hlo

theorem free_val {e : Expr} (h : has (.sym V.k) e = false) :
    eval (realInterp ξ) ρ (powE e (addE (subE (.sym V.n) (.num lower)) (.num 1))) = prodVal V lower ξ ρ N e := by
  rw [eval_powE, eval_upper (realInterp ξ) lower N (.sym V.n) ρ (by simp [eval, hn]), (realInterp ξ).pw_int]
  unfold prodVal
  rw [Finset.prod_congr rfl fun (k : ℤ) _ => Eliminate.eval_noSym (realInterp ξ) V.k (k : ℝ) e h ρ, Finset.prod_const, Int.card_Icc,
    ← zpow_natCast, Int.toNat_of_nonneg (by omega)]
  congr 1
  ring

theorem symbolic_val (hhk : V.h ≠ V.k) {e r : Expr} (hw : Wf V e) (h : symbolic V lower e = some r) :
    eval (realInterp ξ) ρ r = prodVal V lower ξ ρ N e := by
  unfold symbolic at h
  rw [C24_prod_symbolic_partial (realInterp ξ) (stdBind_real ξ) V.h lower (by simp) h ρ N (by simp [eval, hn]) hlo]
  · unfold prodVal
    exact Finset.prod_congr rfl fun k _ => Verify.eval_subst_new (realInterp ξ) hhk hw.1 hw.2.1 hw.2.2 ρ _
  · rintro s c (h | h) <;> simp at h

theorem shift_val {c : ℤ} {e d : Expr} (h : factNum ((lower : ℚ) + c - 1) = some d) (he : ∀ v : ℝ, eval (realInterp ξ) (update ρ V.k v) e = v + c)
    {m : Expr} (hm : eval (realInterp ξ) ρ m = (N : ℝ) + c) :
    eval (realInterp ξ) ρ (quo (.fn .factorial [m]) d) = prodVal V lower ξ ρ N e := by
  obtain ⟨a, ha, hd⟩ := factNum_val ξ h ρ
  have ha' : lower + c = a + 1 := by
    have : (lower : ℚ) + c = (a : ℚ) + 1 := by linarith
    exact_mod_cast this
  rw [eval_quo, hd]
  unfold prodVal
  simp only [he]
  rw [prod_shift lower a c ha' N, eval_fact ξ ρ m (a + (N + 1 - lower).toNat)]
  rw [hm]
  have : (N : ℤ) + c = ((a + (N + 1 - lower).toNat : ℕ) : ℤ) := by push_cast; omega
  exact_mod_cast this

theorem prod_from_one (f : ℤ → ℝ) (h1 : 1 ≤ lower) : ∏ k ∈ range N, f (k + 1) =
    (∏ k ∈ range (lower - 1).toNat, f (k + 1)) * ∏ k ∈ Icc lower (N : ℤ), f k := by
  have h2 := prod_Icc_split f (lo := 1) (a := lower - 1) (b := N) (by omega) (by omega)
  rw [prod_Icc_range f 1 N, prod_Icc_range f 1 (lower - 1)] at h2
  rw [show ((N : ℤ) - 1 + 1).toNat = N by omega, show (lower - 1 - 1 + 1).toNat = (lower - 1).toNat by congr 1; ring,
    show lower - 1 + 1 = lower by ring] at h2
  simp only [add_comm (1 : ℤ)] at h2
  exact h2

/-- The special forms, from `1`. -/
theorem specialForm_val (hs : SameOk O ξ) {e p : Expr} (h : specialForm O V e = some p) :
    eval (realInterp ξ) ρ p = ∏ k ∈ range N, eval (realInterp ξ) (update ρ V.k ((k : ℝ) + 1)) e ∧
      ∀ k : ℕ, eval (realInterp ξ) (update ρ V.k ((k : ℝ) + 1)) e ≠ 0 := by
  have hpow : ∀ b : ℚ, (b : ℝ) ≠ 0 → eval (realInterp ξ) ρ (powE (.num b) (negE (.sym V.n))) = ((b : ℝ) ^ N)⁻¹ := by
    intro b hb
    rw [eval_powE, eval_negE]
    simp only [eval, hn]
    rw [show (-(N : ℝ)) = ((-(N : ℤ) : ℤ) : ℝ) by push_cast; rfl, (realInterp ξ).pw_int, zpow_neg, zpow_natCast]
  have hN := eval_fact ξ ρ (.sym V.n) N (by simp [eval, hn])
  have hpos : ∀ k : ℕ, (0 : ℝ) ≤ k := fun k => Nat.cast_nonneg k
  have hsq : ∀ v : ℝ, (realInterp ξ).pw v ((2 : ℚ) : ℝ) = v ^ 2 := by
    intro v
    rw [show (((2 : ℚ)) : ℝ) = ((2 : ℤ) : ℝ) by norm_num, (realInterp ξ).pw_int]
    norm_cast
  unfold specialForm at h
  by_cases h1 : O.same e (addE (mulE (.num 2) (.sym V.k)) (.num 1)) = true
  · rw [if_pos h1] at h
    obtain rfl := Option.some.inj h
    have he : ∀ v, eval (realInterp ξ) (update ρ V.k v) e = 2 * v + 1 := by
      intro v; rw [hs _ _ h1, eval_addE, eval_mulE]; simp [eval]
    simp only [he]
    rw [prod_odd_plus, eval_quo, eval_mulE, hpow 2 (by norm_num), hN,
      eval_fact ξ ρ _ (2 * N + 1) (by rw [eval_addE, eval_mulE]; simp [eval, hn])]
    refine ⟨by push_cast; rw [← div_eq_mul_inv, div_div], fun k => ?_⟩
    have := hpos k
    positivity
  rw [if_neg h1] at h
  by_cases h2 : O.same e (addE (mulE (.num 2) (.sym V.k)) (.num (-1))) = true
  · rw [if_pos h2] at h
    obtain rfl := Option.some.inj h
    have he : ∀ v, eval (realInterp ξ) (update ρ V.k v) e = 2 * v - 1 := by
      intro v; rw [hs _ _ h2, eval_addE, eval_mulE]; simp [eval]; ring
    simp only [he]
    rw [prod_odd_minus, eval_quo, eval_mulE, hpow 2 (by norm_num), hN,
      eval_fact ξ ρ _ (2 * N) (by rw [eval_mulE]; simp [eval, hn])]
    refine ⟨by push_cast; rw [← div_eq_mul_inv, div_div], fun k => ?_⟩
    have := hpos k
    have : (0 : ℝ) < 2 * ((k : ℝ) + 1) - 1 := by linarith
    exact this.ne'
  rw [if_neg h2] at h
  by_cases h3 : O.same e (addE (addE (.num 2) (mulE (.num (-9)) (.sym V.k))) (mulE (.num 9) (powE (.sym V.k) (.num 2)))) = true
  · rw [if_pos h3] at h
    obtain rfl := Option.some.inj h
    have he : ∀ v, eval (realInterp ξ) (update ρ V.k v) e = 2 + -9 * v + 9 * v ^ 2 := by
      intro v
      rw [hs _ _ h3, eval_addE, eval_addE, eval_mulE, eval_mulE, eval_powE]
      simp only [eval, update_self, hsq]
      push_cast
      ring
    simp only [he]
    rw [prod_triple, eval_quo, eval_mulE, hpow 3 (by norm_num), hN,
      eval_fact ξ ρ _ (3 * N) (by rw [eval_mulE]; simp [eval, hn])]
    refine ⟨by push_cast; rw [← div_eq_mul_inv, div_div], fun k => ?_⟩
    have := hpos k
    have : (0 : ℝ) < 2 + -9 * ((k : ℝ) + 1) + 9 * ((k : ℝ) + 1) ^ 2 := by nlinarith
    exact this.ne'
  · rw [if_neg h3] at h
    exact absurd h (by simp)

theorem removeExtra_val {e c : Expr} (hi : idxNe V.k e = true) (h1 : 1 ≤ lower)
    (hc : eval (realInterp ξ) ρ c = ∏ k ∈ range N, eval (realInterp ξ) (update ρ V.k ((k : ℝ) + 1)) e)
    (hz : ∀ k : ℕ, eval (realInterp ξ) (update ρ V.k ((k : ℝ) + 1)) e ≠ 0) :
    eval (realInterp ξ) ρ (removeExtra V lower e c) = prodVal V lower ξ ρ N e := by
  have hprod : ∀ m : ℕ, eval (realInterp ξ) ρ ((List.range m).foldl (fun acc (i : ℕ) => mulE acc (substitute (.sym V.k) (.num ((i : ℚ) + 1)) e)) (.num 1)) =
      ∏ k ∈ range m, eval (realInterp ξ) (update ρ V.k ((k : ℝ) + 1)) e := by
    intro m
    induction m with
    | zero => simp [eval]
    | succ m ih =>
      rw [List.range_succ, List.foldl_append, List.foldl_cons, List.foldl_nil, eval_mulE, ih, Finset.prod_range_succ,
        eval_substNum (realInterp ξ) V.k hi]
      push_cast
      rfl
  unfold removeExtra prodVal
  rw [eval_quo, hc, hprod]
  have h2 := prod_from_one V hn hlo (fun k : ℤ => eval (realInterp ξ) (update ρ V.k (k : ℝ)) e) h1
  simp only [Int.cast_add, Int.cast_natCast, Int.cast_one] at h2
  rw [h2, mul_div_cancel_left₀]
  exact Finset.prod_ne_zero_iff.mpr fun k _ => hz k

theorem trySpecial_val (hs : SameOk O ξ) {e p : Expr} (hi : idxNe V.k e = true) (h1 : 1 ≤ lower) (h : trySpecial O V lower e = some p) :
    eval (realInterp ξ) ρ p = prodVal V lower ξ ρ N e := by
  unfold trySpecial at h
  simp only [Option.map_eq_some_iff] at h
  obtain ⟨c, hc, rfl⟩ := h
  obtain ⟨hv, hz⟩ := specialForm_val O V ξ hn hlo hs hc
  set e' := if O.lcoeffNeg e = true then mulE (.num (-1)) e else e with he'
  have hi' : idxNe V.k e' = true := by
    rw [he']; split
    · exact idxNe_mulE (by simp [idxNe]) hi
    · exact hi
  have hr := removeExtra_val V ξ hn hlo hi' h1 hv hz
  -- the value without the sign
  have hq : eval (realInterp ξ) ρ (if 1 < lower then
        (if O.lcoeffNeg e && lower % 2 = 0 then mulE (removeExtra V lower e' c) (.num (-1)) else removeExtra V lower e' c) else c) =
      prodVal V lower ξ ρ N e' * (if O.lcoeffNeg e = true ∧ lower % 2 = 0 then -1 else 1) := by
    by_cases hl : 1 < lower
    · rw [if_pos hl]
      by_cases hc2 : O.lcoeffNeg e = true ∧ lower % 2 = 0
      · rw [if_pos (by simpa using hc2), if_pos hc2, eval_mulE, hr]; simp [eval]
      · rw [if_neg (by simpa using hc2), if_neg hc2, hr, mul_one]
    · have : lower = 1 := by omega
      rw [if_neg hl, if_neg (by rw [this]; simp), mul_one, ← hr]
      unfold removeExtra
      rw [this]
      rw [eval_quo]
      simp [eval]
  cases hneg : O.lcoeffNeg e
  · rw [hneg] at hq he'
    simp only [Bool.false_eq_true, if_false] at hq he' ⊢
    simp only [Bool.false_and, Bool.false_eq_true, if_false, false_and, mul_one] at hq ⊢
    rw [hq, he']
  · rw [hneg] at hq he'
    simp only [if_true, Bool.true_and, true_and] at hq he' ⊢
    rw [eval_mulE, hq, eval_powE]
    have hm : (realInterp ξ).pw (eval (realInterp ξ) ρ (.num (-1))) (eval (realInterp ξ) ρ (.sym V.n)) = (-1 : ℝ) ^ N := by
      simp only [eval, hn]
      rw [show ((N : ℝ)) = ((N : ℤ) : ℝ) by push_cast; rfl, (realInterp ξ).pw_int, zpow_natCast]
      push_cast
      rfl
    rw [hm, he']
    unfold prodVal
    have h3 : ∀ k : ℤ, eval (realInterp ξ) (update ρ V.k (k : ℝ)) (mulE (.num (-1)) e) = -1 * eval (realInterp ξ) (update ρ V.k (k : ℝ)) e := by
      intro k; rw [eval_mulE]; simp [eval]
    simp only [h3, Finset.prod_mul_distrib, Finset.prod_const, Int.card_Icc]
    have hsign : (-1 : ℝ) ^ ((N : ℤ) + 1 - lower).toNat * (if lower % 2 = 0 then -1 else 1) * (-1) ^ N = 1 := by
      obtain ⟨m, hm⟩ : ∃ m : ℕ, ((N : ℤ) + 1 - lower) = m := ⟨((N : ℤ) + 1 - lower).toNat, by omega⟩
      rw [hm, Int.toNat_natCast]
      split_ifs with h2
      · rw [mul_right_comm, ← pow_add]
        have : Odd (m + N) := by
          rw [Nat.odd_iff]; omega
        rw [this.neg_one_pow]; norm_num
      · rw [mul_one, ← pow_add]
        have : Even (m + N) := by
          rw [Nat.even_iff]; omega
        rw [this.neg_one_pow]
    calc _ = (∏ k ∈ Icc lower (N : ℤ), eval (realInterp ξ) (update ρ V.k (k : ℝ)) e) *
          ((-1 : ℝ) ^ ((N : ℤ) + 1 - lower).toNat * (if lower % 2 = 0 then -1 else 1) * (-1) ^ N) := by ring
      _ = _ := by rw [hsign, mul_one]

theorem onShift_val {a b r : Expr} {c : ℚ} {den : Bool} (hs : shiftOf V a b = some c) (hc : c.den = 1) (hr : -c < lower ∨ -c ≤ N)
    (h : onShift V lower c (.add [a, b]) den = some r) : eval (realInterp ξ) ρ r = prodVal V lower ξ ρ N (.add [a, b]) := by
  obtain ⟨z, rfl⟩ : ∃ z : ℤ, c = z := ⟨c.num, ((Rat.den_eq_one_iff c).mp hc).symm⟩
  have he : ∀ v : ℝ, eval (realInterp ξ) (update ρ V.k v) (.add [a, b]) = v + z := by
    intro v
    unfold shiftOf at hs
    split at hs
    · split_ifs at hs with h1
      obtain rfl := Option.some.inj hs
      subst h1
      simp [eval]
    · split_ifs at hs with h1
      obtain rfl := Option.some.inj hs
      rw [h1.1]
      simp [eval]
      ring
    · exact absurd hs (by simp)
  have hm : eval (realInterp ξ) ρ (substitute (.sym V.k) (.sym V.n) (.add [a, b])) = (N : ℝ) + z := by
    rw [C18_substitute_binderfree]
    · rw [he]; simp [eval, hn]
    · unfold shiftOf at hs
      split at hs
      · simp [hasSumOrProd]
      · simp [hasSumOrProd]
      · exact absurd hs (by simp)
  have key : ∀ {r}, ((factNum ((lower : ℚ) + z - 1)).map fun d => quo (.fn .factorial [substitute (.sym V.k) (.sym V.n) (.add [a, b])]) d) = some r →
      eval (realInterp ξ) ρ r = prodVal V lower ξ ρ N (.add [a, b]) := by
    intro r h
    obtain ⟨d, hd, rfl⟩ := Option.map_eq_some_iff.mp h
    exact shift_val V ξ hn hlo hd he hm
  unfold onShift at h
  by_cases h1 : (z : ℚ).den = 1 ∧ 0 < (z : ℚ)
  · rw [if_pos h1] at h; exact key h
  rw [if_neg h1] at h
  by_cases h2 : -(z : ℚ) < lower
  · rw [if_pos h2] at h; exact key h
  rw [if_neg h2] at h
  have hle : -(z : ℚ) ≤ N := hr.resolve_left h2
  have hle' : -z ≤ (N : ℤ) := by exact_mod_cast hle
  have hge : lower ≤ -z := by
    have := not_lt.mp h2
    exact_mod_cast this
  split_ifs at h
  obtain rfl := Option.some.inj h
  unfold prodVal
  rw [Finset.prod_eq_zero (i := -z) (by simp [hle', hge])]
  · simp [eval]
  · rw [he]; push_cast; ring

theorem powOk_prod {a : ℝ} {b : ℤ → ℝ} (h : PowOk a b) (s : Finset ℤ) : ∏ k ∈ s, a ^ b k = a ^ ∑ k ∈ s, b k := by
  rcases h with h | ⟨h, hb⟩
  · exact (Real.rpow_sum_of_pos h b s).symm
  · choose z hz using hb
    simp only [hz]
    rw [← Int.cast_sum, Real.rpow_intCast]
    simp only [Real.rpow_intCast]
    induction s using Finset.induction_on with
    | empty => simp
    | insert k s hk ih => rw [Finset.prod_insert hk, Finset.sum_insert hk, zpow_add₀ h, ih]

theorem newExponent_val (hyn : V.y ≠ V.n) (hyk : V.y ≠ V.k) {base x : Expr} (h : ExpFine O V lower ξ ρ base x) :
    eval (realInterp ξ) ρ (newExponent O V x) = ∑ k ∈ Icc lower (N : ℤ), eval (realInterp ξ) (update ρ V.k (k : ℝ)) x := by
  obtain ⟨h1, -, hx, ht⟩ := h
  obtain ⟨hg, hd⟩ := C13_decomposition (realInterp ξ) V.k (O.expand x)
  have hterm : ∀ t ∈ expPolyDecomposition V.k (O.expand x),
      eval (realInterp ξ) ρ (sumPolyTimesExponentials V.y V.n (O.coeffs t.2.1) t.1) -
        eval (realInterp ξ) ρ (substitute (.sym V.y) (.num 0) (substitute (.sym V.k) (.sym V.y) t.2.1)) =
      ∑ j ∈ range N, eval (realInterp ξ) (update ρ V.k ((j : ℝ) + 1)) t.2.1 * eval (realInterp ξ) ρ t.1 ^ (j + 1) := by
    intro t hm
    obtain ⟨-, hc, hp, ha, hk, hy, hf⟩ := ht t hm
    rw [C10_sum_poly_times_exponentials (realInterp ξ) ρ V.y V.n hyn _ hc t.1 ha N hn]
    have h0 : eval (realInterp ξ) ρ (substitute (.sym V.y) (.num 0) (substitute (.sym V.k) (.sym V.y) t.2.1)) =
        eval (realInterp ξ) (update ρ V.k 0) t.2.1 := by
      rw [eval_substNum (realInterp ξ) V.y (idxNe_subst (by simp [idxNe]) hy hk)]
      rw [Verify.eval_subst_new (realInterp ξ) hyk hk hy hf]
      simp
    rw [h0, Finset.sum_range_succ']
    simp only [hp]
    push_cast
    simp
  have hfold : ∀ l : List (Expr × Expr × Expr), (∀ t ∈ l, t ∈ expPolyDecomposition V.k (O.expand x)) →
      eval (realInterp ξ) ρ (l.foldr (fun t acc =>
        subE (addE acc (sumPolyTimesExponentials V.y V.n (O.coeffs t.2.1) t.1))
          (substitute (.sym V.y) (.num 0) (substitute (.sym V.k) (.sym V.y) t.2.1))) (.num 0)) =
      ∑ j ∈ range N, (l.map fun t => eval (realInterp ξ) (update ρ V.k ((j : ℝ) + 1)) t.2.1 * eval (realInterp ξ) ρ t.1 ^ (j + 1)).sum := by
    intro l hl
    induction l with
    | nil => simp [eval]
    | cons t l ih =>
      rw [List.foldr_cons, eval_subE, eval_addE, ih fun t h => hl t (by simp [h]), add_sub_assoc, hterm t (hl t (by simp))]
      simp only [List.map_cons, List.sum_cons, Finset.sum_add_distrib]
      ring
  unfold newExponent
  rw [hfold _ fun t h => h, h1, sum_Icc_range, show ((N : ℤ) - 1 + 1).toNat = N by omega]
  refine Finset.sum_congr rfl fun j _ => ?_
  have hj : (((1 : ℤ) + (j : ℤ) : ℤ) : ℝ) = (j : ℝ) + 1 := by push_cast; ring
  rw [hj, ← hx, ← hd]
  unfold epValue
  congr 1
  refine List.map_congr_left fun t hm => ?_
  rw [(ht t hm).1, C20_scalar_sound (realInterp ξ) V.k t.1 (hg.scalar t hm)]
  simp only [update_self, add_zero]
  rw [show ((j : ℝ) + 1) = ((j + 1 : ℕ) : ℝ) by push_cast; rfl, pw_nat]
  ring

theorem onPower_val (hhk : V.h ≠ V.k) (hyn : V.y ≠ V.n) (hyk : V.y ≠ V.k) (F : Expr → Prop) (rec : Expr → Bool → Option Expr)
    (hrec : ∀ e den r, F e → rec e den = some r → eval (realInterp ξ) ρ r = prodVal V lower ξ ρ N e)
    {b x r : Expr} (hw : Wf V (.pow b x)) (hf : FineCase O V lower ξ ρ N F (.pow b x)) (h : onPower O V lower rec b x = some r) :
    eval (realInterp ξ) ρ r = prodVal V lower ξ ρ N (.pow b x) := by
  unfold onPower at h
  by_cases hb : has (.sym V.k) b = true
  · rw [if_pos hb] at h
    obtain ⟨hF, hq⟩ := hf.1 hb
    split at h
    · rename_i q
      obtain ⟨p, hp, rfl⟩ := Option.map_eq_some_iff.mp h
      rw [eval_powE, hrec b _ p hF hp]
      unfold prodVal
      simp only [eval]
      rcases hq q rfl with hd | hpos
      · rw [ratCast_of_den_one hd, (realInterp ξ).pw_int, ← Finset.prod_zpow]
        simp only [(realInterp ξ).pw_int]
      · exact (Real.finsetProd_rpow _ _ (fun k hk => hpos k hk) _).symm
    · exact symbolic_val V ξ hn hlo hhk hw h
  · rw [if_neg hb] at h
    have hb' : has (.sym V.k) b = false := by simpa using hb
    by_cases hany : ((expPolyDecomposition V.k (O.expand x)).any fun t => t.2.1 ≠ .num 0) = true
    · rw [if_pos hany] at h
      obtain rfl := Option.some.inj h
      have hE := hf.2 hb' (by simpa using hany)
      rw [eval_powE, newExponent_val O V ξ hn hlo hyn hyk hE]
      unfold prodVal
      simp only [eval]
      rw [Finset.prod_congr rfl fun (k : ℤ) _ => by rw [Eliminate.eval_noSym (realInterp ξ) V.k (k : ℝ) b hb' ρ]]
      exact (powOk_prod V hn hlo hE.2.1 _).symm
    · rw [if_neg hany] at h
      exact symbolic_val V ξ hn hlo hhk hw h

theorem onLong_val (hhk : V.h ≠ V.k) (F : Expr → Prop) (rec : Expr → Bool → Option Expr)
    (hrec : ∀ e den r, F e → rec e den = some r → eval (realInterp ξ) ρ r = prodVal V lower ξ ρ N e)
    {e r : Expr} (hw : Wf V e)
    (hc : O.content e = .num 1 ∨
        (∀ v : ℝ, eval (realInterp ξ) (update ρ V.k v) e =
          eval (realInterp ξ) (update ρ V.k v) (O.primpart e) * eval (realInterp ξ) (update ρ V.k v) (O.content e)) ∧
        F (O.primpart e) ∧ F (O.content e))
    (hd : O.denom e = .num 1 ∨
        (∀ v : ℝ, eval (realInterp ξ) (update ρ V.k v) e =
          eval (realInterp ξ) (update ρ V.k v) (O.numer e) / eval (realInterp ξ) (update ρ V.k v) (O.denom e)) ∧
        F (O.numer e) ∧ F (O.denom e))
    (h : onLong O V lower rec e = some r) : eval (realInterp ξ) ρ r = prodVal V lower ξ ρ N e := by
  unfold onLong at h
  obtain ⟨r2, h2, h3⟩ := Option.bind_eq_some_iff.mp h
  obtain ⟨r1, h1, h2⟩ := Option.bind_eq_some_iff.mp h2
  have k1 : ∀ p, r1 = some p → eval (realInterp ξ) ρ p = prodVal V lower ξ ρ N e := by
    rintro p rfl
    unfold contentPart at h1
    by_cases hc1 : O.content e = .num 1
    · rw [if_pos hc1] at h1
      simp at h1
    · rw [if_neg hc1] at h1
      obtain ⟨hv, f1, f2⟩ := hc.resolve_left hc1
      obtain ⟨p1, g1, g⟩ := Option.bind_eq_some_iff.mp h1
      obtain ⟨p2, g2, g3⟩ := Option.map_eq_some_iff.mp g
      obtain rfl := Option.some.inj g3
      rw [eval_mulE, hrec _ _ _ f1 g1, hrec _ _ _ f2 g2]
      unfold prodVal
      rw [← Finset.prod_mul_distrib]
      exact Finset.prod_congr rfl fun k _ => (hv k).symm
  have k2 : ∀ p, r2 = some p → eval (realInterp ξ) ρ p = prodVal V lower ξ ρ N e := by
    rintro p rfl
    unfold denomPart at h2
    by_cases hc1 : O.denom e = .num 1
    · rw [if_pos hc1] at h2
      exact k1 p (Option.some.inj h2)
    · rw [if_neg hc1] at h2
      obtain ⟨hv, f1, f2⟩ := hd.resolve_left hc1
      obtain ⟨p1, g1, g⟩ := Option.bind_eq_some_iff.mp h2
      obtain ⟨p2, g2, g3⟩ := Option.map_eq_some_iff.mp g
      obtain rfl := Option.some.inj g3
      rw [eval_quo, hrec _ _ _ f1 g1, hrec _ _ _ f2 g2]
      unfold prodVal
      rw [← Finset.prod_div_distrib]
      exact Finset.prod_congr rfl fun k _ => (hv k).symm
  cases r2 with
  | some p =>
    obtain rfl := Option.some.inj h3
    exact k2 _ rfl
  | none => exact symbolic_val V ξ hn hlo hhk hw h3

theorem onAdd_val (hs : SameOk O ξ) (h1 : 1 ≤ lower) (hhk : V.h ≠ V.k) (F : Expr → Prop) (rec : Expr → Bool → Option Expr)
    (hrec : ∀ e den r, F e → rec e den = some r → eval (realInterp ξ) ρ r = prodVal V lower ξ ρ N e)
    {l : List Expr} {r : Expr} {den : Bool} (hw : Wf V (.add l)) (hf : FineCase O V lower ξ ρ N F (.add l))
    (h : onAdd O V lower rec (.add l) den = some r) : eval (realInterp ξ) ρ r = prodVal V lower ξ ρ N (.add l) := by
  unfold onAdd at h
  split at h
  · rename_i p hp
    obtain rfl := Option.some.inj h
    split_ifs at hp with hpoly
    exact trySpecial_val O V ξ hn hlo hs hw.1 h1 hp
  · split at h
    · rename_i a b heq
      obtain rfl := Expr.add.inj heq
      split at h
      · rename_i c hc
        have := hf c hc
        exact onShift_val V ξ hn hlo hc this.1 this.2 h
      · exact symbolic_val V ξ hn hlo hhk hw h
    · rename_i hne
      rw [FineCase] at hf
      · exact onLong_val O V ξ hn hlo hhk F rec hrec hw hf.1 hf.2 h
      · exact fun a b hab => hne a b (by rw [hab])

/-- **C53**, the recursion: whatever the kind of expression, the answer has the value of the product. -/
theorem C53_comp_prod_partial (hs : SameOk O ξ) (h1 : 1 ≤ lower) (hhk : V.h ≠ V.k) (hyn : V.y ≠ V.n) (hyk : V.y ≠ V.k)
    (fuel : ℕ) {e r : Expr} {den : Bool} (hf : Fine O V lower ξ ρ N fuel e) (h : compProd O V lower fuel e den = some r) :
    eval (realInterp ξ) ρ r = prodVal V lower ξ ρ N e := by
  induction fuel generalizing e r den with
  | zero => simp [compProd] at h
  | succ fuel ih =>
    rw [compProd] at h
    unfold step at h
    by_cases hk : has (.sym V.k) e = true
    · rw [if_neg (by simp [hk])] at h
      obtain ⟨hw, hc⟩ := hf hk
      by_cases he : e = .sym V.k
      · rw [if_pos he, if_pos (by omega)] at h
        obtain ⟨d, hd, rfl⟩ := Option.map_eq_some_iff.mp h
        subst he
        exact shift_val V ξ hn hlo (c := 0) (by simpa using hd) (fun v => by simp [eval]) (by simp [eval, hn])
      · rw [if_neg he] at h
        cases e with
        | add l => exact onAdd_val O V ξ hn hlo hs h1 hhk _ _ (fun e den r hF hr => ih hF hr) hw hc h
        | pow b x => exact onPower_val O V ξ hn hlo hhk hyn hyk _ _ (fun e den r hF hr => ih hF hr) hw hc h
        | mul l =>
          have hc' : ∀ a ∈ l, Fine O V lower ξ ρ N fuel a := hc
          have : ∀ (l : List Expr) (r : Expr), (∀ a ∈ l, Fine O V lower ξ ρ N fuel a) →
              l.foldr (fun a acc => acc.bind fun p => (compProd O V lower fuel a false).map fun q => mulE p q) (some (.num 1)) = some r →
              eval (realInterp ξ) ρ r = (l.map fun a => prodVal V lower ξ ρ N a).prod := by
            intro l
            induction l with
            | nil => intro r _ hr; obtain rfl := Option.some.inj hr; simp [eval]
            | cons a l ihl =>
              intro r hl hr
              rw [List.foldr_cons, Option.bind_eq_some_iff] at hr
              obtain ⟨p, hp, hr⟩ := hr
              obtain ⟨q, hq, rfl⟩ := Option.map_eq_some_iff.mp hr
              rw [eval_mulE, ihl p (fun a h => hl a (by simp [h])) hp, ih (hl a (by simp)) hq, List.map_cons, List.prod_cons, mul_comm]
          rw [this l r hc' h]
          unfold prodVal
          simp only [eval]
          clear this hc' hc h hw he hk hf
          induction l with
          | nil => simp
          | cons a l ihl => simp only [List.map_cons, List.prod_cons, Finset.prod_mul_distrib, ihl]
        | num q => exact symbolic_val V ξ hn hlo hhk hw h
        | const q => exact symbolic_val V ξ hn hlo hhk hw h
        | sym q => exact symbolic_val V ξ hn hlo hhk hw h
        | fn g l => exact symbolic_val V ξ hn hlo hhk hw h
        | binder g i a b c => exact symbolic_val V ξ hn hlo hhk hw h
    · rw [if_pos (by simp [hk])] at h
      obtain rfl := Option.some.inj h
      exact free_val V ξ hn hlo (by simpa using hk)

/-- **C53**: the closed form has, for every `n ≥ lower - 1`, the value of the product from `lower` to `n`. The hypotheses on
`factorize` and on the expansion are their contracts. -/
theorem C53_product_partial (hs : SameOk O ξ) (h1 : 1 ≤ lower) (hhk : V.h ≠ V.k) (hyn : V.y ≠ V.n) (hyk : V.y ≠ V.k)
    (fuel : ℕ) {e r : Expr}
    (hfac : ∀ v : ℝ, eval (realInterp ξ) (update ρ V.k v) (O.factorize (O.expand e)).1 *
      eval (realInterp ξ) (update ρ V.k v) (O.factorize (O.expand e)).2 = eval (realInterp ξ) (update ρ V.k v) e)
    (hf1 : Fine O V lower ξ ρ N fuel (O.factorize (O.expand e)).1) (hf2 : Fine O V lower ξ ρ N fuel (O.factorize (O.expand e)).2)
    (h : computeProduct O V lower fuel e = some r) : eval (realInterp ξ) ρ r = prodVal V lower ξ ρ N e := by
  unfold computeProduct at h
  rw [Option.bind_eq_some_iff] at h
  obtain ⟨p, hp, h⟩ := h
  obtain ⟨q, hq, rfl⟩ := Option.map_eq_some_iff.mp h
  rw [eval_mulE, C53_comp_prod_partial O V ξ hn hlo hs h1 hhk hyn hyk fuel hf1 hp,
    C53_comp_prod_partial O V ξ hn hlo hs h1 hhk hyn hyk fuel hf2 hq]
  unfold prodVal
  rw [← Finset.prod_mul_distrib]
  exact Finset.prod_congr rfl fun k _ => hfac k

end

/-! ### Concrete cases -/

/-- Operations with which the examples run; the polynomials of the examples are already expanded and without common factors. -/
def exOps : Ops where
  same a b := a = b
  lcoeffNeg _ := false
  content _ := .num 1
  primpart e := e
  numer e := e
  denom _ := .num 1
  expand e := e
  coeffs e := if e = .sym "k" then [.num 0, .num 1] else [e]
  factorize e := (.num 1, e)

def exNames : Names := ⟨"k", "n", "h", "y"⟩

theorem exOps_same (ξ : ℝ → ℝ) : SameOk exOps ξ := by
  intro a b h ρ
  have : a = b := by simpa [exOps] using h
  rw [this]

theorem exOps_fac (e : Expr) (v : ℝ) (σ : String → ℝ) : eval (realInterp ξ) (update σ exNames.k v) (exOps.factorize (exOps.expand e)).1 *
      eval (realInterp ξ) (update σ exNames.k v) (exOps.factorize (exOps.expand e)).2 = eval (realInterp ξ) (update σ exNames.k v) e := by
  simp [exOps, eval]

theorem kdec : expPolyDecomposition "k" (.sym "k") = [(.num 1, .sym "k", .num 0)] := by
  simp [expPolyDecomposition, epSummand, epFactor, epBase, bumpLast, isolatePolynomialPart, isPolynomial, addE]

theorem one_val (lower : ℤ) (fuel : ℕ) : ∃ p, compProd exOps exNames lower (fuel + 1) (.num 1) false = some p ∧
    ∀ σ : String → ℝ, eval (realInterp ξ) σ p = 1 := by
  refine ⟨_, by simp only [compProd]; unfold step; rw [if_pos (by simp [has])], fun σ => ?_⟩
  rw [eval_powE]
  simp only [eval, Rat.cast_one]
  exact (realInterp ξ).one_pw _

theorem step_add {O : Ops} {V : Names} {lower : ℤ} {rec : Expr → Bool → Option Expr} {l : List Expr} {den : Bool}
    (h : has (.sym V.k) (.add l) = true) : step O V lower rec (.add l) den = onAdd O V lower rec (.add l) den := by
  unfold step
  rw [if_neg (by simp [h]), if_neg (by simp)]

theorem third_form (k : String) : addE (addE (.num 2) (mulE (.num (-9)) (.sym k))) (mulE (.num 9) (powE (.sym k) (.num 2))) =
    .add [.num 2, .mul [.num (-9), .sym k], .mul [.num 9, .pow (.sym k) (.num 2)]] := by
  have h1 : mulE (.num (-9)) (.sym k) = .mul [.num (-9), .sym k] := by
    have : ¬ (-9 : ℚ) = 1 := by norm_num
    simp [mulE, this]
  have h2 : mulE (.num 9) (powE (.sym k) (.num 2)) = .mul [.num 9, .pow (.sym k) (.num 2)] := by
    simp [mulE, powE]
  rw [h1, h2]
  simp [addE]

/-- The answer for the product of `k + c`. -/
theorem shift_case (lower : ℤ) (c : ℚ) {d : Expr} (h : onShift exNames lower c (.add [.sym "k", .num c]) false = some d) :
    ∃ r, computeProduct exOps exNames lower 1 (.add [.sym "k", .num c]) = some r ∧
      ∀ σ : String → ℝ, eval (realInterp ξ) σ r = eval (realInterp ξ) σ d := by
  obtain ⟨p, hp, hv⟩ := one_val ξ lower 0
  refine ⟨mulE p d, ?_, fun σ => by rw [eval_mulE, hv, one_mul]⟩
  unfold computeProduct
  rw [show (exOps.factorize (exOps.expand (.add [.sym "k", .num c]))) = (.num 1, .add [.sym "k", .num c]) from rfl, hp]
  have : compProd exOps exNames lower 1 (.add [.sym "k", .num c]) false = some d := by
    rw [compProd, step_add (by simp [has, exNames])]
    unfold onAdd
    have hsp : trySpecial exOps exNames lower (.add [.sym "k", .num c]) = none := by
      unfold trySpecial specialForm
      simp only [third_form, exOps, exNames]
      simp [addE, mulE]
    rw [hsp, ite_self]
    dsimp only
    rw [show shiftOf exNames (.sym "k") (.num c) = some c by simp [shiftOf, exNames]]
    exact h
  simp [this]

/-- **C53** is false for `k - 5` and the lower bound `1`: the answer is `0`, but the product up to `3` is `-24`. -/
theorem C53_negative_shift_refuted : ∃ r, computeProduct exOps exNames 1 1 (.add [.sym "k", .num (-5)]) = some r ∧
    ∀ σ : String → ℝ, σ "n" = 3 → eval (realInterp ξ) σ r = 0 ∧ prodVal exNames 1 ξ σ 3 (.add [.sym "k", .num (-5)]) = -24 := by
  obtain ⟨r, hr, hv⟩ := shift_case ξ 1 (-5) (d := .num 0) (by unfold onShift; norm_num)
  refine ⟨r, hr, fun σ _ => ⟨by rw [hv]; simp [eval], ?_⟩⟩
  unfold prodVal
  rw [prod_Icc_range]
  simp [Finset.prod_range_succ, eval, exNames]
  norm_num

/-- **C53** is false for `k - 3/2`: the answer is `0` (an operator precedence mistake), but no factor is `0`. -/
theorem C53_rational_shift_refuted : ∃ r, computeProduct exOps exNames 1 1 (.add [.sym "k", .num (-3/2)]) = some r ∧
    ∀ (σ : String → ℝ) (N : ℕ), eval (realInterp ξ) σ r = 0 ∧ prodVal exNames 1 ξ σ N (.add [.sym "k", .num (-3/2)]) ≠ 0 := by
  obtain ⟨r, hr, hv⟩ := shift_case ξ 1 (-3/2) (d := .num 0) (by unfold onShift; norm_num)
  refine ⟨r, hr, fun σ N => ⟨by rw [hv]; simp [eval], ?_⟩⟩
  unfold prodVal
  refine Finset.prod_ne_zero_iff.mpr fun k _ => ?_
  simp only [eval, List.map_cons, List.map_nil, List.sum_cons, List.sum_nil, exNames, update_self]
  push_cast
  intro h
  have h2 : (2 * k : ℝ) = 3 := by linarith
  have h3 : 2 * k = 3 := by exact_mod_cast h2
  omega

/-- **C53** is false for `2 k - 1` and the lower bound `0`: the answer ignores the factor `-1` for `k = 0`. -/
theorem C53_lower_zero_refuted : ∃ r, computeProduct exOps exNames 0 1 (addE (mulE (.num 2) (.sym "k")) (.num (-1))) = some r ∧
    ∀ (σ : String → ℝ) (N : ℕ), σ "n" = N → 0 < eval (realInterp ξ) σ r ∧
      prodVal exNames 0 ξ σ N (addE (mulE (.num 2) (.sym "k")) (.num (-1))) = -eval (realInterp ξ) σ r := by
  set e := addE (mulE (.num 2) (.sym "k")) (.num (-1)) with he
  have he' : e = .add [.mul [.num 2, .sym "k"], .num (-1)] := by
    rw [he]; simp [addE, mulE]
  obtain ⟨p, hp, hv⟩ := one_val ξ 0 0
  obtain ⟨d, hd⟩ : ∃ d, specialForm exOps exNames e = some d := by
    unfold specialForm
    rw [if_neg (by simp [exOps, exNames, he', addE, mulE]; norm_num), if_pos (by simp [exOps, exNames, he])]
    exact ⟨_, rfl⟩
  refine ⟨mulE p d, ?_, fun σ N hN => ?_⟩
  · unfold computeProduct
    rw [show (exOps.factorize (exOps.expand e)) = (.num 1, e) from rfl, hp]
    have : compProd exOps exNames 0 1 e false = some d := by
      rw [compProd, he', step_add (by simp [has, exNames])]
      unfold onAdd
      rw [← he']
      have hsp : trySpecial exOps exNames 0 e = some d := by
        unfold trySpecial
        simp only [show exOps.lcoeffNeg e = false from rfl, Bool.false_eq_true, if_false, hd]
        simp
      rw [hsp, if_pos (by rw [he']; simp [isPolynomial, exNames, isScalarRep])]
    simp [this]
  · have hv2 := (specialForm_val exOps exNames ξ (lower := 0) (ρ := σ) (N := N) hN (by omega) (exOps_same ξ) hd).1
    rw [eval_mulE, hv, one_mul, hv2]
    have hval : ∀ v : ℝ, eval (realInterp ξ) (update σ exNames.k v) e = 2 * v - 1 := by
      intro v; rw [he, eval_addE, eval_mulE]; simp [eval, exNames]; ring
    unfold prodVal
    rw [prod_Icc_range, show ((N : ℤ) - 0 + 1).toNat = N + 1 by omega, Finset.prod_range_succ']
    simp only [hval]
    refine ⟨Finset.prod_pos fun k _ => ?_, ?_⟩
    · have : (0 : ℝ) ≤ k := Nat.cast_nonneg k
      linarith
    · push_cast
      simp

/-- The coefficients found for `k`. -/
theorem k_fine (σ : String → ℝ) : ExpFine exOps exNames 1 ξ σ (.num 2) (.sym "k") := by
  refine ⟨rfl, Or.inl (by simp [eval]), fun v => rfl, ?_⟩
  rw [show exOps.expand (.sym "k") = .sym "k" from rfl, show exNames.k = "k" from rfl, kdec]
  intro t ht
  obtain rfl := List.mem_singleton.mp ht
  refine ⟨fun v => by simp [eval], ⟨by simp [exOps], by simp [exOps, isScalarRep, hasSumOrProd]⟩, fun v => ?_, Or.inl rfl,
    by simp [idxNe], by simp [idxNe], by simp [has, exNames]⟩
  simp [exOps, polyVal, eval, Finset.sum_range_succ]

/-- The answer for `2^k` does not depend on the lower bound. -/
theorem power_lower : ∃ r, (∀ lower : ℤ, compProd exOps exNames lower 1 (.pow (.num 2) (.sym "k")) false = some r) ∧
    ∀ (σ : String → ℝ) (N : ℕ), σ "n" = N → eval (realInterp ξ) σ r = ∏ k ∈ range N, (2 : ℝ) ^ (k + 1) := by
  have hany : ((expPolyDecomposition exNames.k (exOps.expand (.sym "k"))).any fun t => t.2.1 ≠ .num 0) = true := by
    rw [show exOps.expand (.sym "k") = .sym "k" from rfl, show exNames.k = "k" from rfl, kdec]
    simp
  have hr : ∀ lower : ℤ, compProd exOps exNames lower 1 (.pow (.num 2) (.sym "k")) false = some (powE (.num 2) (newExponent exOps exNames (.sym "k"))) := by
    intro lower
    rw [compProd]
    unfold step
    rw [if_neg (by simp [has, exNames]), if_neg (by simp)]
    dsimp only
    unfold onPower
    rw [if_neg (by simp [has]), if_pos hany]
  refine ⟨_, hr, fun σ N hN => ?_⟩
  have hw : Wf exNames (.pow (.num 2) (.sym "k")) := by
    refine ⟨?_, ?_, ?_⟩ <;> simp [idxNe, has, exNames]
  have hf : Fine exOps exNames 1 ξ σ N 1 (.pow (.num 2) (.sym "k")) := by
    intro _
    refine ⟨hw, fun h => ?_, fun _ _ => k_fine ξ σ⟩
    simp [has] at h
  rw [C53_comp_prod_partial exOps exNames ξ hN (by omega) (exOps_same ξ) le_rfl (by decide) (by decide) (by decide) 1 hf (hr 1)]
  unfold prodVal
  rw [prod_Icc_range, show ((N : ℤ) - 1 + 1).toNat = N by omega]
  refine Finset.prod_congr rfl fun k _ => ?_
  simp only [eval, exNames, update_self]
  rw [show (((1 : ℤ) + (k : ℤ) : ℤ) : ℝ) = ((k + 1 : ℕ) : ℝ) by push_cast; ring, pw_nat]
  norm_num

/-- **C53** is false for `2^k` and the lower bound `3`: up to `3` the answer is `64`, but the product is `2^3 = 8`. -/
theorem C53_power_lower_refuted : ∃ r, compProd exOps exNames 3 1 (.pow (.num 2) (.sym "k")) false = some r ∧
    ∀ σ : String → ℝ, σ "n" = 3 → eval (realInterp ξ) σ r = 64 ∧ prodVal exNames 3 ξ σ 3 (.pow (.num 2) (.sym "k")) = 8 := by
  obtain ⟨r, hr, hv⟩ := power_lower ξ
  refine ⟨r, hr 3, fun σ h => ⟨?_, ?_⟩⟩
  · rw [hv σ 3 (by rw [h]; norm_num)]
    norm_num [Finset.prod_range_succ]
  · unfold prodVal
    rw [prod_Icc_range]
    simp only [eval, exNames, update_self]
    rw [show (((3 : ℕ) : ℤ) - 3 + 1).toNat = 1 by decide, Finset.prod_range_one]
    rw [show (((3 : ℤ) + ((0 : ℕ) : ℤ) : ℤ) : ℝ) = ((3 : ℕ) : ℝ) by push_cast; ring, pw_nat]
    norm_num

/-- A case that meets the hypotheses of `C53_product_partial`: the product of `k + 2` from `3` to `n`, for all `n ≥ 2`. -/
example : ∃ r, computeProduct exOps exNames 3 1 (.add [.sym "k", .num 2]) = some r ∧
    ∀ (σ : String → ℝ) (N : ℕ), σ "n" = N → 2 ≤ N → eval (realInterp ξ) σ r = ∏ k ∈ Icc (3 : ℤ) N, ((k : ℝ) + 2) := by
  obtain ⟨r, hr, -⟩ := shift_case ξ 3 2 (by unfold onShift; rw [if_pos (by norm_num)]; unfold factNum; rw [if_pos (by norm_num)]; rfl)
  refine ⟨r, hr, fun σ N hN h2 => ?_⟩
  have hf : Fine exOps exNames 3 ξ σ N 1 (.add [.sym "k", .num 2]) := by
    refine fun _ => ⟨⟨?_, ?_, ?_⟩, fun c hc => ?_⟩
    · simp [idxNe]
    · simp [idxNe]
    · simp [has, exNames]
    · simp only [shiftOf, exNames, if_true] at hc
      obtain rfl := Option.some.inj hc
      norm_num
  rw [C53_product_partial exOps exNames ξ hN (by omega) (exOps_same ξ) (by norm_num) (by decide) (by decide) (by decide) 1
    (fun v => exOps_fac ξ _ v σ) (fun h => by simp [exOps, has] at h) hf hr]
  unfold prodVal
  refine Finset.prod_congr rfl fun k _ => ?_
  simp [eval, exNames]

end Purrs.Product
