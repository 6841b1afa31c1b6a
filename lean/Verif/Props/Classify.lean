import Verif.Model.Classify
import Verif.Props.OrderRed
import Verif.Props.WeightedAvg
import Mathlib.Data.List.GetD

/-!
# C36, C37: what the classification records
-/

set_option linter.unusedSectionVars false

namespace Purrs.Classify

open Purrs Purrs.OrderRed
open Function (update update_of_ne update_self update_comm)

/-! ## Specification: what an addend can be -/

/-- The three possible meanings of an addend: `c x(n - i)`, `c x(n / d)`, `e`. -/
inductive Piece where
  | dec (i : ℕ) (c : Expr)
  | div (d : ℚ) (c : Expr)
  | inh (e : Expr)

section
variable {K : Type} [Field K] [CharZero K] (I : Interp K)

/-- The value of a piece at `n = v`. -/
def Piece.val (n : String) (X : K → K) (ρ : String → K) (v : K) : Piece → K
  | .dec i c => eval (withX I X) (update ρ n v) c * X (v - i)
  | .div d c => eval (withX I X) (update ρ n v) c * X (v / d)
  | .inh e => eval (withX I X) (update ρ n v) e

theorem getDecrement_spec {n : String} {arg : Expr} {d : ℚ} (h : getDecrement n arg = some d) :
    d.den = 1 ∧ ∀ (J : Interp K) (ρ : String → K) (v : K), eval J (update ρ n v) arg = v - d := by
  unfold getDecrement at h
  split at h
  · rename_i a b
    dsimp only at h
    split at h
    · rename_i q hq
      split_ifs at h with h1
      simp only [Option.some.injEq] at h
      subst h
      refine ⟨by simpa using h1, fun J ρ v => ?_⟩
      split_ifs at hq with h2 h3
      · simp only [Option.some.injEq] at hq
        subst h2 hq
        simp [eval]
      · simp only [Option.some.injEq] at hq
        subst h3 hq
        simp [eval, add_comm]
    · simp at h
  · simp at h

theorem getDivisor_spec {n : String} {arg : Expr} {d : ℚ} (h : getDivisor n arg = some d) :
    0 < d ∧ ∀ (J : Interp K) (ρ : String → K) (v : K), eval J (update ρ n v) arg = v / d := by
  unfold getDivisor at h
  split at h
  · rename_i a b
    dsimp only at h
    split at h
    · rename_i q hq
      split_ifs at h with h1
      simp only [Option.some.injEq] at h
      subst h
      refine ⟨by have := h1.2; positivity, fun J ρ v => ?_⟩
      split_ifs at hq with h2 h3
      · simp only [Option.some.injEq] at hq
        subst h2 hq
        simp [eval]
      · simp only [Option.some.injEq] at hq
        subst h3 hq
        simp [eval, mul_comm]
    · simp at h
  · simp at h

end

theorem computeOrder_spec {ms : ℕ} {d : ℚ} {order i o : ℕ} (hd : d.den = 1)
    (h : computeOrder ms d order = .ok (i, o)) : (i : ℚ) = d ∧ o = max order i := by
  unfold computeOrder at h
  split_ifs at h with h1 h2
  simp only [Except.ok.injEq, Prod.mk.injEq] at h
  obtain ⟨hi, ho⟩ := h
  subst hi
  constructor
  · have h3 : 0 ≤ d.num := by rw [Rat.num_nonneg]; linarith
    have h4 : (d.num : ℚ) = d := by
      conv_rhs => rw [← Rat.num_div_den d, hd]
      simp
    rw [← h4]
    have h5 : ((d.num.toNat : ℕ) : ℤ) = d.num := Int.toNat_of_nonneg h3
    exact_mod_cast h5
  · rw [← ho]
    split_ifs with h6
    · omega
    · omega

/-! ## Linear terms -/

theorem nl_spec (n : String) (l : List Expr) :
    ((l.foldr (nlStep n) (false, .linear, false)).1 = true →
      (l.foldr (nlStep n) (false, .linear, false)).2.1 = .nested) ∧
    ((l.foldr (nlStep n) (false, .linear, false)).2.1 = .linear →
      (∀ f ∈ l, kindOf n f ≠ .nested ∧ kindOf n f ≠ .legal) ∧ l.countP (isXn n) ≤ 1 ∧
        ((l.foldr (nlStep n) (false, .linear, false)).2.2 = true ↔ l.countP (isXn n) = 1)) := by
  induction l with
  | nil => simp
  | cons a l ih =>
    obtain ⟨ih1, ih2⟩ := ih
    rw [List.foldr_cons]
    generalize l.foldr (nlStep n) (false, .linear, false) = r at ih1 ih2
    obtain ⟨r1, r2, r3⟩ := r
    simp only at ih1 ih2
    unfold nlStep
    cases r1 with
    | true =>
      have h1 := ih1 rfl
      simp [h1]
    | false =>
      by_cases hn : kindOf n a = .nested
      · simp [hn]
      · by_cases hl : kindOf n a = .legal
        · by_cases hx : isXn n a = true <;> by_cases h3 : r3 = true <;> simp [hl, hx, h3]
        · by_cases hx : isXn n a = true
          · by_cases h3 : r3 = true
            · simp [hn, hl, hx, h3]
            · simp only [hn, hl, hx, h3, if_true, if_false, Bool.false_eq_true]
              refine ⟨by simp, fun h => ?_⟩
              obtain ⟨i1, i2, i3⟩ := ih2 h
              have h0 : l.countP (isXn n) ≠ 1 := fun h => h3 (i3.mpr h)
              have h0' : l.countP (isXn n) = 0 := by omega
              rw [List.countP_cons_of_pos hx]
              refine ⟨?_, by omega, by simp [h0']⟩
              intro f hf
              rcases List.mem_cons.mp hf with rfl | hf
              · exact ⟨hn, hl⟩
              · exact i1 f hf
          · simp only [hn, hl, hx, if_false, Bool.false_eq_true]
            refine ⟨by simp, fun h => ?_⟩
            obtain ⟨i1, i2, i3⟩ := ih2 h
            rw [List.countP_cons_of_neg hx]
            refine ⟨?_, i2, i3⟩
            intro f hf
            rcases List.mem_cons.mp hf with rfl | hf
            · exact ⟨hn, hl⟩
            · exact i1 f hf


/-! ## The effect of one addend -/

/-- Is it `x(a)`? -/
def isX : Expr → Bool
  | .fn .x [_] => true
  | _ => false

/-- The factors of an addend other than the unknown. -/
def others (a : Expr) : List Expr := (factors a).filter fun f => !isX f

/-- The decrement `d` of `x(n - d)`. -/
def xDecr (n : String) : Expr → Option ℚ
  | .fn .x [arg] => getDecrement n arg
  | _ => none

/-- The divisor `d` of `x(n / d)`. -/
def xDiv (n : String) : Expr → Option ℚ
  | .fn .x [arg] => getDivisor n arg
  | _ => none

/-- The decrements in a piece. -/
def Piece.decs : Piece → List ℚ
  | .dec i _ => [(i : ℚ)]
  | _ => []

/-- The divisors in a piece. -/
def Piece.divs : Piece → List ℚ
  | .div d _ => [d]
  | _ => []

/-- The addend `a` means the piece `p`, for every sequence, at every point. -/
def Means (n : String) (a : Expr) (p : Piece) : Prop :=
  ∀ (K : Type) [Field K] [CharZero K] (I : Interp K) (X : K → K) (ρ : String → K) (v : K),
    eval (withX I X) (update ρ n v) a = p.val I n X ρ v

/-- The coefficient of a piece, or the piece itself. -/
def Piece.coeff : Piece → Expr
  | .dec _ c => c
  | .div _ c => c
  | .inh e => e

/-- `p` is the piece of `a`: it has the value of `a`, and its coefficient is the product of the other factors. -/
structure PieceOf (n : String) (a : Expr) (p : Piece) : Prop where
  means : Means n a p
  coeff : p.coeff = a ∧ isX a = false ∧ (∀ l, a ≠ .mul l) ∧ p.decs = [] ∨ p.coeff = (others a).foldr (fun f acc => mulE acc f) (.num 1)
  decs : (factors a).filterMap (xDecr n) = p.decs
  divs : (factors a).filterMap (xDiv n) = p.divs

theorem isAdd2_div {n : String} {arg : Expr} (h : isAdd2 arg = true) : getDivisor n arg = none := by
  unfold isAdd2 at h
  split at h
  · rfl
  · simp at h

theorem isMul2_dec {n : String} {arg : Expr} (h : isMul2 arg = true) : getDecrement n arg = none := by
  unfold isMul2 at h
  split at h
  · rfl
  · simp at h

theorem xDecr_notX {n : String} {f : Expr} (h : isX f = false) : xDecr n f = none ∧ xDiv n f = none := by
  unfold isX at h
  unfold xDecr xDiv
  split at h
  · simp at h
  · rename_i hne
    exact ⟨rfl, rfl⟩

/-- The type after an addend `c x(n - i)`; `hn`: does one of the factors of `c` contain `n`? -/
def tyDec (ty : RType) (hn : Bool) : RType := if ty = .linVar ∨ hn = true then .linVar else .linConst

/-- The effect of a piece on the recorded values. -/
def Applied (n : String) (k : ℕ) (a : Expr) (st st' : St) : Piece → Prop
  | .dec i c => st.ty ≠ .functional ∧ st' = { st with
      ty := tyDec st.ty ((others a).any (has (.sym n)))
      order := max st.order i
      gcdDec := newGcd k st.gcdDec i
      coeffs := insertCoeff c i st.coeffs }
  | .div d c => (st.fresh = true ∨ st.ty = .functional) ∧
      st' = { st with ty := .functional, homog := mapInsert d c st.homog }
  | .inh e => st' = addInhom e st

/-- The types met during the loop. -/
def TyOk (ty : RType) : Prop := ty = .unknown ∨ ty = .orderZero ∨ ty = .linConst ∨ ty = .linVar ∨ ty = .functional

theorem ite_ok {α : Type} {c : Prop} [Decidable c] {a b r : α} (h : (if c then a else b) = r) :
    c ∧ a = r ∨ ¬c ∧ b = r := by
  by_cases hc : c
  · rw [if_pos hc] at h; exact .inl ⟨hc, h⟩
  · rw [if_neg hc] at h; exact .inr ⟨hc, h⟩

theorem singleX_spec {n : String} {ms k : ℕ} {arg : Expr} {st st' : St} (hty : TyOk st.ty)
    (h : singleX n ms k arg st = .ok st') :
    ∃ p, PieceOf n (.fn .x [arg]) p ∧ Applied n k (.fn .x [arg]) st st' p := by
  have ho : others (.fn .x [arg]) = [] := by simp [others, factors, isX]
  unfold singleX at h
  iterate 3 (rcases ite_ok h with ⟨-, h'⟩ | ⟨-, h'⟩; cases h'; clear h; rename' h' => h)
  split at h
  · rename_i hadd
    split at h
    · simp at h
    · rename_i d hd
      split at h
      · simp at h
      · rename_i i o hco
        rcases ite_ok h with ⟨h6, h'⟩ | ⟨h6, h'⟩
        · cases h'
        clear h; rename' h' => h
        simp only [Res.ok.injEq] at h
        subst h
        obtain ⟨hden, -⟩ := getDecrement_spec (K := ℚ) hd
        obtain ⟨hi, ho'⟩ := computeOrder_spec hden hco
        refine ⟨.dec i (.num 1), ⟨?_, .inr (by simp [Piece.coeff, ho]), by simp [factors, xDecr, hd, Piece.decs, hi],
          by simp [factors, xDiv, isAdd2_div hadd, Piece.divs]⟩, ?_, ?_⟩
        · intro K _ _ I X ρ v
          rw [eval_x, (getDecrement_spec (K := K) hd).2, ← hi]
          simp [Piece.val, eval]
        · rcases hty with h | h | h | h | h <;> simp [h, St.fresh] at h6 ⊢
        · rw [ho, ho']
          rcases hty with h | h | h | h | h <;> simp [h, St.fresh, tyDec] at h6 ⊢
  split at h
  · rename_i hmul
    split at h
    · simp at h
    · rename_i d hd
      rcases ite_ok h with ⟨h6, h'⟩ | ⟨h6, h'⟩
      · cases h'
      clear h; rename' h' => h
      simp only [Res.ok.injEq] at h
      subst h
      refine ⟨.div d (.num 1), ⟨?_, .inr (by simp [Piece.coeff, ho]), by simp [factors, xDecr, isMul2_dec hmul, Piece.decs],
        by simp [factors, xDiv, hd, Piece.divs]⟩, ?_, ?_⟩
      · intro K _ _ I X ρ v
        rw [eval_x, (getDivisor_spec (K := K) hd).2]
        simp [Piece.val, eval]
      · rcases hty with h | h | h | h | h <;> simp [h, St.fresh, St.linear] at h6 ⊢
      · rcases hty with h | h | h | h | h <;> simp [h, St.fresh, St.linear] at h6 ⊢
  · cases h

theorem single_spec {n : String} {ms k : ℕ} {a : Expr} {st st' : St} (hty : TyOk st.ty) (hm : ∀ l, a ≠ .mul l)
    (h : single n ms k a st = .ok st') : ∃ p, PieceOf n a p ∧ Applied n k a st st' p := by
  unfold single at h
  split at h
  · exact singleX_spec hty h
  · rename_i hne
    split_ifs at h with h1
    simp only [Res.ok.injEq] at h
    have hX : isX a = false := by
      unfold isX
      split
      · exact absurd rfl (hne _)
      · rfl
    have hf : factors a = [a] := by
      cases a <;> simp [factors]
      exact absurd rfl (hm _)
    refine ⟨.inh a, ⟨fun K _ _ I X ρ v => rfl, .inl ⟨rfl, hX, hm, rfl⟩, ?_, ?_⟩, h.symm⟩
    · simp [hf, (xDecr_notX (n := n) hX).1, Piece.decs]
    · simp [hf, (xDecr_notX (n := n) hX).2, Piece.divs]

/-! ### Products -/

/-- What the loop over the factors `fs` has computed. -/
structure LoopInv (n : String) (k : ℕ) (st : St) (fs : List Expr) (l : Loop) : Prop where
  hasN : l.hasN = (fs.filter fun f => !isX f).any (has (.sym n))
  noX : l.noX = (fs.filter fun f => !isX f).foldr (fun f acc => mulE acc f) (.num 1)
  cnt : l.hasX = true → 1 ≤ fs.countP (isXn n)
  cases : (l.hasX = false ∧ l.st = st ∧ fs.filterMap (xDecr n) = [] ∧ fs.filterMap (xDiv n) = [] ∧
      ∀ (K : Type) [Field K] [CharZero K] (J : Interp K) (ρ : String → K),
        (fs.map fun f => eval J ρ f).prod = eval J ρ l.noX) ∨
    (l.hasX = true ∧ st.ty ≠ .functional ∧ fs.filterMap (xDecr n) = [(l.index : ℚ)] ∧ fs.filterMap (xDiv n) = [] ∧
      l.st = { st with order := max st.order l.index, gcdDec := newGcd k st.gcdDec l.index } ∧
      ∀ (K : Type) [Field K] [CharZero K] (I : Interp K) (X : K → K) (ρ : String → K) (v : K),
        (fs.map fun f => eval (withX I X) (update ρ n v) f).prod
          = eval (withX I X) (update ρ n v) l.noX * X (v - l.index)) ∨
    (l.hasX = true ∧ (st.fresh = true ∨ st.ty = .functional) ∧ fs.filterMap (xDecr n) = [] ∧
      fs.filterMap (xDiv n) = [l.divisor] ∧ l.st = { st with ty := .functional } ∧
      ∀ (K : Type) [Field K] [CharZero K] (I : Interp K) (X : K → K) (ρ : String → K) (v : K),
        (fs.map fun f => eval (withX I X) (update ρ n v) f).prod
          = eval (withX I X) (update ρ n v) l.noX * X (v / l.divisor))

theorem factorX_isXn {n : String} {ms k : ℕ} {arg : Expr} {l l' : Loop} (h : factorX n ms k arg l = .ok l') :
    has (.sym n) arg = true := by
  unfold factorX at h
  split_ifs at h with h1 h2 <;> simp_all

theorem loop_inv {n : String} {ms k : ℕ} {st : St} (hty : TyOk st.ty) (fs : List Expr) {l : Loop}
    (hc : fs.countP (isXn n) ≤ 1)
    (h : fs.foldr (factorStep n ms k) (.ok ⟨.num 1, false, false, 0, 0, st⟩) = .ok l) : LoopInv n k st fs l := by
  induction fs generalizing l with
  | nil =>
    simp only [List.foldr_nil, LRes.ok.injEq] at h
    subst h
    exact ⟨rfl, rfl, by simp, .inl ⟨rfl, rfl, rfl, rfl, by intros; simp [eval]⟩⟩
  | cons f fs ih =>
    rw [List.foldr_cons] at h
    have hc' : fs.countP (isXn n) ≤ 1 := by
      rw [List.countP_cons] at hc; omega
    generalize hr : fs.foldr (factorStep n ms k) (.ok ⟨.num 1, false, false, 0, 0, st⟩) = r at h
    cases r with
    | fail e => simp [factorStep] at h
    | weighted => simp [factorStep] at h
    | ok l0 =>
      have hi := ih hc' hr
      unfold factorStep at h
      dsimp only at h
      split at h
      · rename_i arg
        have hx := factorX_isXn h
        have hcx : isXn n (.fn .x [arg]) = true := by simpa [isXn] using hx
        rw [List.countP_cons_of_pos hcx] at hc
        have h0 : l0.hasX = false := by
          by_contra h1
          have := hi.cnt (by simpa using h1)
          omega
        have hfil : ((Expr.fn .x [arg] :: fs).filter fun f => !isX f) = fs.filter fun f => !isX f := by
          simp [isX]
        obtain ⟨hst, hdecs, hdivs, hval⟩ : l0.st = st ∧ fs.filterMap (xDecr n) = [] ∧ fs.filterMap (xDiv n) = [] ∧
            ∀ (K : Type) [Field K] [CharZero K] (J : Interp K) (ρ : String → K),
            (fs.map fun f => eval J ρ f).prod = eval J ρ l0.noX := by
          rcases hi.cases with h1 | h1 | h1
          · exact h1.2
          · simp [h0] at h1
          · simp [h0] at h1
        unfold factorX at h
        iterate 3 (rcases ite_ok h with ⟨-, h'⟩ | ⟨-, h'⟩; cases h'; clear h; rename' h' => h)
        split at h
        · rename_i hadd
          split at h
          · simp at h
          · rename_i d hd
            split at h
            · simp at h
            · rename_i i o hco
              rcases ite_ok h with ⟨h6, h'⟩ | ⟨h6, h'⟩
              · cases h'
              clear h; rename' h' => h
              simp only [LRes.ok.injEq] at h
              subst h
              obtain ⟨hden, -⟩ := getDecrement_spec (K := ℚ) hd
              obtain ⟨hi', ho'⟩ := computeOrder_spec hden hco
              refine ⟨by rw [hfil]; exact hi.hasN, by rw [hfil]; exact hi.noX, fun _ => ?_,
                .inr (.inl ⟨rfl, ?_, by simp [xDecr, hd, hdecs, hi'], by simp [xDiv, isAdd2_div hadd, hdivs], ?_, ?_⟩)⟩
              · rw [List.countP_cons_of_pos hcx]; omega
              · rw [← hst]; exact h6
              · simp only [hst, ho']
              · intro K _ _ I X ρ v
                rw [List.map_cons, List.prod_cons, hval, eval_x, (getDecrement_spec (K := K) hd).2, ← hi']
                push_cast
                ring
        split at h
        · rename_i hmul
          split at h
          · simp at h
          · rename_i d hd
            rcases ite_ok h with ⟨h6, h'⟩ | ⟨h6, h'⟩
            · cases h'
            clear h; rename' h' => h
            simp only [LRes.ok.injEq] at h
            subst h
            rw [hst] at h6
            refine ⟨by rw [hfil]; exact hi.hasN, by rw [hfil]; exact hi.noX, fun _ => ?_,
              .inr (.inr ⟨rfl, ?_, by simp [xDecr, isMul2_dec hmul, hdecs], by simp [xDiv, hd, hdivs], ?_, ?_⟩)⟩
            · rw [List.countP_cons_of_pos hcx]; omega
            · rcases hty with h | h | h | h | h <;> simp [h, St.fresh, St.linear] at h6 ⊢
            · simp only [hst]
              rcases hty with h | h | h | h | h <;> simp [h, St.fresh, St.linear] at h6 ⊢
            · intro K _ _ I X ρ v
              rw [List.map_cons, List.prod_cons, hval, eval_x, (getDivisor_spec (K := K) hd).2]
              ring
        · cases h
      · rename_i hne
        split_ifs at h with h1
        simp only [LRes.ok.injEq] at h
        have hX : isX f = false := by
          unfold isX
          split
          · exact absurd rfl (hne _)
          · rfl
        have hfil : ((f :: fs).filter fun f => !isX f) = f :: fs.filter fun f => !isX f := by simp [hX]
        subst h
        refine ⟨?_, ?_, fun hh => ?_, ?_⟩
        · rw [hfil, List.any_cons, hi.hasN, Bool.or_comm]
        · rw [hfil, List.foldr_cons, hi.noX]
        · have := hi.cnt hh
          rw [List.countP_cons]; omega
        · have hxd := xDecr_notX (n := n) hX
          rcases hi.cases with ⟨e1, e2, k1, k2, e3⟩ | ⟨e1, e2, k1, k2, e3, e4⟩ | ⟨e1, e2, k1, k2, e3, e4⟩
          · refine .inl ⟨e1, e2, by simp [hxd, k1], by simp [hxd, k2], fun K _ _ J ρ => ?_⟩
            rw [List.map_cons, List.prod_cons, e3, eval_mulE, mul_comm]
          · refine .inr (.inl ⟨e1, e2, by simp [hxd, k1], by simp [hxd, k2], e3, fun K _ _ I X ρ v => ?_⟩)
            rw [List.map_cons, List.prod_cons, e4, eval_mulE]; ring
          · refine .inr (.inr ⟨e1, e2, by simp [hxd, k1], by simp [hxd, k2], e3, fun K _ _ I X ρ v => ?_⟩)
            rw [List.map_cons, List.prod_cons, e4, eval_mulE]; ring

theorem product_spec {n : String} {ms k : ℕ} {fs : List Expr} {st st' : St} (hty : TyOk st.ty)
    (hl : findNonLinear n (.mul fs) = .linear) (h : product n ms k fs st = .ok st') :
    ∃ p, PieceOf n (.mul fs) p ∧ Applied n k (.mul fs) st st' p := by
  have hc := ((nl_spec n fs).2 hl).2.1
  unfold product at h
  split at h
  · rename_i l hr
    simp only [Res.ok.injEq] at h
    have hi := loop_inv hty fs hc hr
    have ho : others (.mul fs) = fs.filter fun f => !isX f := rfl
    subst h
    unfold finishProduct
    rcases hi.cases with ⟨e1, e2, k1, k2, e3⟩ | ⟨e1, e2, k1, k2, e3, e4⟩ | ⟨e1, e2, k1, k2, e3, e4⟩
    · refine ⟨.inh l.noX, ⟨fun K _ _ I X ρ v => ?_, .inr (by rw [ho]; exact hi.noX), k1, k2⟩, ?_⟩
      · rw [Piece.val, ← e3]; simp [eval]
      · simp [e1, Applied, e2]
    · refine ⟨.dec l.index l.noX, ⟨fun K _ _ I X ρ v => ?_, .inr (by rw [ho]; exact hi.noX), k1, k2⟩, e2, ?_⟩
      · rw [Piece.val, ← e4]; simp [eval]
      · have h7 : l.st.ty = st.ty := by rw [e3]
        rw [if_pos e1, if_neg (by rw [h7]; exact e2)]
        rw [ho, ← hi.hasN, e3]
        simp only [tyDec, St.mk.injEq, and_true]
        by_cases h8 : st.ty = .linVar <;> by_cases h9 : l.hasN = true <;> simp [h8, h9]
    · refine ⟨.div l.divisor l.noX, ⟨fun K _ _ I X ρ v => ?_, .inr (by rw [ho]; exact hi.noX), k1, k2⟩, e2, ?_⟩
      · rw [Piece.val, ← e4]; simp [eval]
      · rw [if_pos e1, if_pos (by rw [e3]), e3]
  · simp at h
  · simp at h

theorem summand_spec {n : String} {ms k : ℕ} {a : Expr} {st st' : St} (hty : TyOk st.ty)
    (h : summand n ms k a st = .ok st') : ∃ p, PieceOf n a p ∧ Applied n k a st st' p := by
  unfold summand at h
  split at h
  · simp at h
  · simp at h
  · simp at h
  · simp at h
  · rename_i hl
    split at h
    · exact product_spec hty hl h
    · rename_i hm
      exact single_spec hty hm h


/-! ## The whole right-hand side -/

/-- The decrements `d` of the terms `x(n - d)` of the right-hand side. -/
def decrements (n : String) (rhs : Expr) : List ℚ := (addends rhs).flatMap fun a => (factors a).filterMap (xDecr n)

/-- The divisors `d` of the terms `x(n / d)` of the right-hand side. -/
def divisors (n : String) (rhs : Expr) : List ℚ := (addends rhs).flatMap fun a => (factors a).filterMap (xDiv n)

section
variable {K : Type} [Field K] [CharZero K]

/-- `∑ a_i x(n-i)` for the recorded coefficients. -/
def coeffSum (J : Interp K) (ρ : String → K) (cs : List Expr) (Y : ℕ → K) : K :=
  ∑ i ∈ Finset.range cs.length, eval J ρ (cs.getD i (.num 0)) * Y i

theorem coeffSum_ge (J : Interp K) (ρ : String → K) (cs : List Expr) (Y : ℕ → K) (M : ℕ) (h : cs.length ≤ M) :
    coeffSum J ρ cs Y = ∑ i ∈ Finset.range M, eval J ρ (cs.getD i (.num 0)) * Y i := by
  unfold coeffSum
  refine Finset.sum_subset (by simpa using h) ?_
  intro i _ hi
  rw [List.getD_eq_default _ _ (by simpa using hi)]
  simp [eval]

theorem length_insertCoeff (c : Expr) (i : ℕ) (cs : List Expr) : (insertCoeff c i cs).length = max cs.length (i + 1) := by
  unfold insertCoeff
  dsimp only
  split_ifs with h
  · simp at h ⊢; omega
  · simp at h ⊢; omega

theorem getD_insertCoeff (J : Interp K) (ρ : String → K) (c : Expr) (i : ℕ) (cs : List Expr) (j : ℕ) :
    eval J ρ ((insertCoeff c i cs).getD j (.num 0))
      = eval J ρ (cs.getD j (.num 0)) + if i = j then eval J ρ c else 0 := by
  have hpad : ∀ j, (cs ++ List.replicate (i - cs.length) (Expr.num 0)).getD j (.num 0) = cs.getD j (.num 0) := by
    intro j
    by_cases h : j < cs.length
    · rw [List.getD_append _ _ _ _ h]
    · rw [List.getD_append_right _ _ _ _ (by omega), List.getD_eq_default cs _ (by omega)]
      by_cases h2 : j - cs.length < i - cs.length
      · rw [List.getD_replicate _ h2]
      · rw [List.getD_eq_default _ _ (by simp; omega)]
  unfold insertCoeff
  dsimp only
  set cs' := cs ++ List.replicate (i - cs.length) (Expr.num 0) with hcs
  split_ifs with h h2 h2
  · subst h2
    rw [List.getD_append_right _ _ _ _ (by omega), List.getD_eq_default cs _ (by rw [hcs] at h; simp at h; omega)]
    simp [h, eval]
  · rw [add_zero, ← hpad]
    by_cases h3 : j < cs'.length
    · rw [List.getD_append _ _ _ _ h3]
    · rw [List.getD_append_right _ _ _ _ (by omega), List.getD_eq_default cs' _ (by omega),
        List.getD_eq_default _ _ (by simp; omega)]
  · subst h2
    have h4 : i < cs'.length := by rw [hcs] at h ⊢; simp at h ⊢; omega
    rw [List.getD_eq_getElem _ _ (by simpa using h4), List.getElem_set_self, eval_addE, hpad]
  · rw [add_zero, ← hpad, List.getD_eq_getElem?_getD, List.getElem?_set_ne h2, ← List.getD_eq_getElem?_getD]

theorem coeffSum_insert (J : Interp K) (ρ : String → K) (c : Expr) (i : ℕ) (cs : List Expr) (Y : ℕ → K) :
    coeffSum J ρ (insertCoeff c i cs) Y = coeffSum J ρ cs Y + eval J ρ c * Y i := by
  rw [coeffSum_ge J ρ cs Y (insertCoeff c i cs).length (by rw [length_insertCoeff]; omega)]
  unfold coeffSum
  have h : i ∈ Finset.range (insertCoeff c i cs).length := by
    rw [length_insertCoeff, Finset.mem_range]; omega
  simp only [getD_insertCoeff, add_mul, Finset.sum_add_distrib]
  congr 1
  simp only [ite_mul, zero_mul]
  rw [Finset.sum_ite_eq, if_pos h]

/-- The value of what has been recorded. -/
def stVal (I : Interp K) (n : String) (X : K → K) (ρ : String → K) (v : K) (st : St) : K :=
  coeffSum (withX I X) (update ρ n v) st.coeffs (fun i => X (v - i))
    + (st.homog.map fun p => eval (withX I X) (update ρ n v) p.2 * X (v / p.1)).sum
    + eval (withX I X) (update ρ n v) st.inhom

theorem stVal_step {n : String} {k : ℕ} {a : Expr} {st st' : St} {p : Piece} (hp : PieceOf n a p)
    (ha : Applied n k a st st' p) (hd : ∀ d ∈ p.divs, ∀ q ∈ st.homog, q.1 ≠ d)
    (I : Interp K) (X : K → K) (ρ : String → K) (v : K) :
    stVal I n X ρ v st' = stVal I n X ρ v st + eval (withX I X) (update ρ n v) a := by
  rw [hp.means K I X ρ v]
  cases p with
  | dec i c =>
    obtain ⟨-, rfl⟩ := ha
    simp only [stVal, Piece.val, coeffSum_insert]
    ring
  | div d c =>
    obtain ⟨-, rfl⟩ := ha
    have h1 : mapInsert d c st.homog = st.homog ++ [(d, c)] := by
      unfold mapInsert
      rw [if_neg]
      simp only [List.any_eq_true, decide_eq_true_eq, not_exists, not_and]
      exact fun q hq => hd d (by simp [Piece.divs]) q hq
    simp only [stVal, Piece.val, h1, List.map_append, List.sum_append, List.map_cons, List.map_nil, List.sum_cons,
      List.sum_nil, add_zero]
    ring
  | inh e =>
    have ha : st' = addInhom e st := ha
    subst ha
    simp only [stVal, Piece.val, addInhom, eval_addE]
    ring

end

/-- Every coefficient recorded satisfies `P`, as soon as `P` is kept by sums. -/
theorem insertCoeff_forall {P : Expr → Prop} (h0 : P (.num 0)) (hadd : ∀ a b, P a → P b → P (addE a b)) {c : Expr} (hc : P c)
    (i : ℕ) {cs : List Expr} (hcs : ∀ e ∈ cs, P e) : ∀ e ∈ insertCoeff c i cs, P e := by
  have h1 : ∀ e ∈ cs ++ List.replicate (i - cs.length) (Expr.num 0), P e := by
    intro e he
    rcases List.mem_append.mp he with h | h
    · exact hcs e h
    · rw [List.mem_replicate] at h; rw [h.2]; exact h0
  unfold insertCoeff
  dsimp only
  split_ifs with h
  · intro e he
    rcases List.mem_append.mp he with h | h
    · exact h1 e h
    · simp at h; rw [h]; exact hc
  · intro e he
    rcases List.mem_or_eq_of_mem_set he with h | h
    · exact h1 e h
    · rw [h]
      refine hadd _ _ ?_ hc
      by_cases h2 : i < (cs ++ List.replicate (i - cs.length) (Expr.num 0)).length
      · rw [List.getD_eq_getElem _ _ h2]; exact h1 _ (List.getElem_mem h2)
      · rw [List.getD_eq_default _ _ (by omega)]; exact h0


/-- The loop over the addends, step by step. -/
inductive Steps (n : String) : ℕ → List Expr → St → St → Prop
  | nil (k : ℕ) (st : St) : Steps n k [] st st
  | cons {k : ℕ} {a : Expr} {as : List Expr} {st st' st'' : St} {p : Piece} (hty : TyOk st.ty)
      (hk : ∀ f ∈ factors a, kindOf n f ≠ .nested ∧ kindOf n f ≠ .legal)
      (hp : PieceOf n a p) (ha : Applied n k a st st' p) (hs : Steps n (k + 1) as st' st'') : Steps n k (a :: as) st st''

theorem tyOk_applied {n : String} {k : ℕ} {a : Expr} {st st' : St} {p : Piece} (hty : TyOk st.ty)
    (ha : Applied n k a st st' p) : TyOk st'.ty := by
  cases p with
  | dec i c =>
    obtain ⟨-, rfl⟩ := ha
    simp only [tyDec]
    split_ifs <;> simp [TyOk]
  | div d c => obtain ⟨-, rfl⟩ := ha; simp [TyOk]
  | inh e =>
    have ha : st' = addInhom e st := ha
    subst ha
    simp only [addInhom]
    split_ifs
    · simp [TyOk]
    · exact hty

theorem loop_steps {n : String} {ms : ℕ} (as : List Expr) : ∀ {k : ℕ} {st st' : St}, TyOk st.ty →
    loopFrom n ms k as st = .ok st' → Steps n k as st st' := by
  induction as with
  | nil =>
    intro k st st' _ h
    simp only [loopFrom, Res.ok.injEq] at h
    subst h; exact .nil k st
  | cons a as ih =>
    intro k st st' hty h
    rw [loopFrom] at h
    cases hs : summand n ms k a st with
    | ok st1 =>
      rw [hs] at h
      obtain ⟨p, hp, ha⟩ := summand_spec hty hs
      refine .cons hty ?_ hp ha (ih (tyOk_applied hty ha) h)
      unfold summand at hs
      split at hs
      · cases hs
      · cases hs
      · cases hs
      · cases hs
      · rename_i hl
        cases a with
        | mul l => exact ((nl_spec n l).2 hl).1
        | _ =>
          intro f hf
          simp only [factors, List.mem_singleton] at hf
          subst hf
          rw [findNonLinear] at hl
          · rw [hl]; simp
          all_goals simp
    | fail f => rw [hs] at h; cases h
    | nonLinear => rw [hs] at h; cases h
    | weighted => rw [hs] at h; cases h

theorem classify_steps {n : String} {ms : ℕ} {rhs : Expr} {st : St} (h : classify n ms rhs = .ok st) :
    Steps n 0 (addends rhs) initSt st := loop_steps _ (.inl rfl) h

/-! ### Order and greatest common divisor -/

theorem steps_order {n : String} {k : ℕ} {as : List Expr} {st st' : St} (h : Steps n k as st st') :
    st.order ≤ st'.order ∧ (∀ d ∈ as.flatMap fun a => (factors a).filterMap (xDecr n), d ≤ st'.order) ∧
      (st'.order = st.order ∨ (st'.order : ℚ) ∈ as.flatMap fun a => (factors a).filterMap (xDecr n)) := by
  induction h with
  | nil => simp
  | @cons k a as st st1 st2 p hty hk hp ha hs ih =>
    obtain ⟨i1, i2, i3⟩ := ih
    have hdecs := hp.decs
    have h1 : st.order ≤ st1.order ∧ (∀ d ∈ p.decs, d ≤ st1.order) ∧
        (st1.order = st.order ∨ (st1.order : ℚ) ∈ p.decs) := by
      cases p with
      | dec i c =>
        obtain ⟨-, rfl⟩ := ha
        simp only [Piece.decs, List.mem_singleton, forall_eq]
        refine ⟨le_max_left _ _, by exact_mod_cast le_max_right _ _, ?_⟩
        rcases max_choice st.order i with h | h
        · left; exact h
        · right; rw [h]
      | div d c => obtain ⟨-, rfl⟩ := ha; simp [Piece.decs]
      | inh e =>
        have ha : st1 = addInhom e st := ha
        subst ha; simp [Piece.decs, addInhom]
    obtain ⟨j1, j2, j3⟩ := h1
    rw [List.flatMap_cons, hdecs]
    refine ⟨j1.trans i1, ?_, ?_⟩
    · intro d hd
      rcases List.mem_append.mp hd with h | h
      · exact (j2 d h).trans (by exact_mod_cast i1)
      · exact i2 d h
    · rcases i3 with h | h
      · rcases j3 with h' | h'
        · left; rw [h, h']
        · right; rw [h]; exact List.mem_append_left _ h'
      · right; exact List.mem_append_right _ h

theorem steps_gcd {n : String} {k : ℕ} {as : List Expr} {st st' : St} (h : Steps n k as st st')
    (hk0 : k = 0 → st.gcdDec = 0) (m : ℕ) :
    m ∣ st'.gcdDec ↔ m ∣ st.gcdDec ∧
      ∀ d ∈ as.flatMap fun a => (factors a).filterMap (xDecr n), ∃ j : ℕ, d = j ∧ m ∣ j := by
  induction h with
  | nil => simp
  | @cons k a as st st1 st2 p hty hk hp ha hs ih =>
    rw [ih (by omega), List.flatMap_cons, hp.decs]
    have h1 : m ∣ st1.gcdDec ↔ m ∣ st.gcdDec ∧ ∀ d ∈ p.decs, ∃ j : ℕ, d = j ∧ m ∣ j := by
      cases p with
      | dec i c =>
        obtain ⟨-, rfl⟩ := ha
        simp only [Piece.decs, List.mem_singleton, forall_eq, newGcd]
        have h2 : (∃ j : ℕ, (i : ℚ) = j ∧ m ∣ j) ↔ m ∣ i :=
          ⟨fun ⟨j, h3, h4⟩ => by rw [show i = j by exact_mod_cast h3]; exact h4, fun h => ⟨i, rfl, h⟩⟩
        rw [h2]
        split_ifs with h0
        · rw [hk0 h0]; simp
        · exact Nat.dvd_gcd_iff
      | div d c => obtain ⟨-, rfl⟩ := ha; simp [Piece.decs]
      | inh e =>
        have ha : st1 = addInhom e st := ha
        subst ha; simp [Piece.decs, addInhom]
    rw [h1]
    simp only [List.mem_append, or_imp, forall_and]
    tauto

theorem steps_length {n : String} {k : ℕ} {as : List Expr} {st st' : St} (h : Steps n k as st st')
    (h0 : st.coeffs = [] ∧ st.order = 0 ∨ st.coeffs.length = st.order + 1) :
    st'.coeffs = [] ∧ st'.order = 0 ∨ st'.coeffs.length = st'.order + 1 := by
  induction h with
  | nil => exact h0
  | @cons k a as st st1 st2 p hty hk hp ha hs ih =>
    apply ih
    cases p with
    | dec i c =>
      obtain ⟨-, rfl⟩ := ha
      right
      simp only [length_insertCoeff]
      rcases h0 with ⟨h1, h2⟩ | h1
      · rw [h1, h2]; simp
      · rw [h1]; omega
    | div d c => obtain ⟨-, rfl⟩ := ha; exact h0
    | inh e =>
      have ha : st1 = addInhom e st := ha
      subst ha; exact h0

/-- **C36**, order: the recorded order is the largest decrement of the right-hand side (zero if there is none), and
the vector of the coefficients has the positions `0, ..., order` (it is empty if there is no decrement). -/
theorem C36_order {n : String} {ms : ℕ} {rhs : Expr} {st : St} (h : classify n ms rhs = .ok st) :
    (∀ d ∈ decrements n rhs, d ≤ st.order) ∧ (st.order = 0 ∨ (st.order : ℚ) ∈ decrements n rhs) ∧
      (st.coeffs = [] ∧ st.order = 0 ∨ st.coeffs.length = st.order + 1) := by
  have hs := classify_steps h
  obtain ⟨-, h2, h3⟩ := steps_order hs
  exact ⟨h2, h3, steps_length hs (.inl ⟨rfl, rfl⟩)⟩

/-- **C36**, greatest common divisor: the recorded number is the greatest common divisor of the decrements, which are
natural numbers. -/
theorem C36_gcd {n : String} {ms : ℕ} {rhs : Expr} {st : St} (h : classify n ms rhs = .ok st) (m : ℕ) :
    m ∣ st.gcdDec ↔ ∀ d ∈ decrements n rhs, ∃ j : ℕ, d = j ∧ m ∣ j := by
  rw [steps_gcd (classify_steps h) (fun _ => rfl) m]
  simp [initSt, decrements]

/-! ### The type -/

theorem steps_type {n : String} {k : ℕ} {as : List Expr} {st st' : St} (h : Steps n k as st st') :
    (st'.ty = .functional ↔ st.ty = .functional ∨ (as.flatMap fun a => (factors a).filterMap (xDiv n)) ≠ []) ∧
    (st'.ty = .linVar ↔ st.ty = .linVar ∨
      ∃ a ∈ as, (factors a).filterMap (xDecr n) ≠ [] ∧ (others a).any (has (.sym n)) = true) ∧
    (st'.ty = .linVar ∨ st'.ty = .linConst ↔ st.ty = .linVar ∨ st.ty = .linConst ∨
      (as.flatMap fun a => (factors a).filterMap (xDecr n)) ≠ []) ∧
    (st'.ty = .unknown ↔ st.ty = .unknown ∧ as = []) := by
  induction h with
  | nil => simp
  | @cons k a as st st1 st2 p hty hk hp ha hs ih =>
    obtain ⟨i1, i2, i3, i4⟩ := ih
    rw [i3, i1, i2, i4]
    simp only [List.flatMap_cons, hp.decs, hp.divs, List.mem_cons, exists_eq_or_imp]
    cases p with
    | dec i c =>
      obtain ⟨h0, rfl⟩ := ha
      simp only [Piece.decs, Piece.divs, tyDec]
      rcases hty with h | h | h | h | h <;> by_cases hn : (others a).any (has (.sym n)) = true <;>
        simp [h, hn] at h0 ⊢
    | div d c =>
      obtain ⟨h0, rfl⟩ := ha
      simp only [Piece.decs, Piece.divs]
      rcases hty with h | h | h | h | h <;> simp [h, St.fresh] at h0 ⊢
    | inh e =>
      have ha : st1 = addInhom e st := ha
      subst ha
      simp only [Piece.decs, Piece.divs, addInhom]
      rcases hty with h | h | h | h | h <;> simp [h]


theorem steps_tyOk {n : String} {k : ℕ} {as : List Expr} {st st' : St} (h : Steps n k as st st') (h0 : TyOk st.ty) :
    TyOk st'.ty := by
  induction h with
  | nil => exact h0
  | cons hty hk hp ha hs ih => exact ih (tyOk_applied hty ha)

/-- **C36**, type: the recurrence is recorded as a functional equation exactly when there is a term `x(n/d)`, as a
linear recurrence of finite order with variable coefficients exactly when some term `x(n-d)` has another factor with `n`
in it, with coefficients that are constant exactly when there are terms `x(n-d)` but no such factor, and as a recurrence
of order zero otherwise (an empty sum leaves the type undetermined). -/
theorem C36_type {n : String} {ms : ℕ} {rhs : Expr} {st : St} (h : classify n ms rhs = .ok st) :
    (st.ty = .functional ↔ divisors n rhs ≠ []) ∧
    (st.ty = .linVar ↔ ∃ a ∈ addends rhs, (factors a).filterMap (xDecr n) ≠ [] ∧ (others a).any (has (.sym n)) = true) ∧
    (st.ty = .linConst ↔ decrements n rhs ≠ [] ∧
      ¬∃ a ∈ addends rhs, (factors a).filterMap (xDecr n) ≠ [] ∧ (others a).any (has (.sym n)) = true) ∧
    (st.ty = .orderZero ↔ addends rhs ≠ [] ∧ decrements n rhs = [] ∧ divisors n rhs = []) ∧
    (st.ty = .unknown ↔ addends rhs = []) := by
  have hs := classify_steps h
  obtain ⟨h1, h2, h3, h4⟩ := steps_type hs
  have hty : TyOk st.ty := steps_tyOk hs (.inl rfl)
  have hi : initSt.ty = .unknown := rfl
  simp only [hi, false_or, reduceCtorEq, true_and] at h1 h2 h3 h4
  refine ⟨h1, h2, ?_, ?_, h4⟩
  · rw [← h2]
    change _ ↔ (List.flatMap _ _ ≠ []) ∧ _
    rw [← h3]
    rcases hty with h | h | h | h | h <;> simp [h]
  · change _ ↔ _ ∧ (List.flatMap _ _ = []) ∧ (List.flatMap _ _ = [])
    rcases hty with h | h | h | h | h <;> simp only [h, reduceCtorEq, true_iff, false_iff, or_true, true_or, or_self,
      ne_eq, not_not] at h1 h2 h3 h4 ⊢
    · simp [h4]
    · exact ⟨h4, h3, h1⟩
    · exact fun h5 => h3 h5.2.1
    · exact fun h5 => h3 h5.2.1
    · exact fun h5 => h1 h5.2.2

/-! ### The value -/

theorem keys_applied {n : String} {k : ℕ} {a : Expr} {st st' : St} {p : Piece} (ha : Applied n k a st st' p) :
    ∀ q ∈ st'.homog, q.1 ∈ p.divs ∨ ∃ q' ∈ st.homog, q'.1 = q.1 := by
  cases p with
  | dec i c => obtain ⟨-, rfl⟩ := ha; exact fun q hq => .inr ⟨q, hq, rfl⟩
  | div d c =>
    obtain ⟨-, rfl⟩ := ha
    intro q hq
    simp only [mapInsert] at hq
    split_ifs at hq
    · exact .inr ⟨q, hq, rfl⟩
    · rcases List.mem_append.mp hq with h | h
      · exact .inr ⟨q, h, rfl⟩
      · left; simp at h; simp [Piece.divs, h]
  | inh e =>
    have ha : st' = addInhom e st := ha
    subst ha; exact fun q hq => .inr ⟨q, hq, rfl⟩

theorem steps_val {K : Type} [Field K] [CharZero K] {n : String} {k : ℕ} {as : List Expr} {st st' : St}
    (h : Steps n k as st st') (hnd : (as.flatMap fun a => (factors a).filterMap (xDiv n)).Nodup)
    (hd : ∀ d ∈ as.flatMap fun a => (factors a).filterMap (xDiv n), ∀ q ∈ st.homog, q.1 ≠ d)
    (I : Interp K) (X : K → K) (ρ : String → K) (v : K) :
    stVal I n X ρ v st' = stVal I n X ρ v st + (as.map (eval (withX I X) (update ρ n v))).sum := by
  induction h with
  | nil => simp
  | @cons k a as st st1 st2 p hty hk hp ha hs ih =>
    rw [List.flatMap_cons, hp.divs] at hnd hd
    obtain ⟨n1, n2, n3⟩ := List.nodup_append.mp hnd
    rw [ih n2 ?_, stVal_step hp ha (fun d hd' => hd d (List.mem_append_left _ hd')), List.map_cons, List.sum_cons]
    · ring
    · intro d hd' q hq
      rcases keys_applied ha q hq with h | ⟨q', h, h'⟩
      · exact n3 _ h _ hd'
      · rw [← h']; exact hd d (List.mem_append_right _ hd') q' h

theorem steps_homog {n : String} {k : ℕ} {as : List Expr} {st st' : St}
    (h : Steps n k as st st') (hnd : (as.flatMap fun a => (factors a).filterMap (xDiv n)) = []) :
    st'.homog = st.homog := by
  induction h with
  | nil => rfl
  | @cons k a as st st1 st2 p hty hk hp ha hs ih =>
    rw [List.flatMap_cons, hp.divs, List.append_eq_nil_iff] at hnd
    rw [ih hnd.2]
    cases p with
    | dec i c => obtain ⟨-, rfl⟩ := ha; rfl
    | div d c => simp [Piece.divs] at hnd
    | inh e =>
      have ha : st1 = addInhom e st := ha
      subst ha; rfl

theorem steps_coeffs {n : String} {k : ℕ} {as : List Expr} {st st' : St}
    (h : Steps n k as st st') (hnd : (as.flatMap fun a => (factors a).filterMap (xDecr n)) = []) :
    st'.coeffs = st.coeffs := by
  induction h with
  | nil => rfl
  | @cons k a as st st1 st2 p hty hk hp ha hs ih =>
    rw [List.flatMap_cons, hp.decs, List.append_eq_nil_iff] at hnd
    rw [ih hnd.2]
    cases p with
    | dec i c => simp [Piece.decs] at hnd
    | div d c => obtain ⟨-, rfl⟩ := ha; rfl
    | inh e =>
      have ha : st1 = addInhom e st := ha
      subst ha; rfl

/-- **C36**, identity: a right-hand side recorded as a linear recurrence of finite order (or of order zero) has, for
every sequence `X` and at every `n = v`, the value `∑ a_i X(v - i) + p(v)` of the recorded coefficients and
inhomogeneous part. -/
theorem C36_identity {n : String} {ms : ℕ} {rhs : Expr} {st : St} (h : classify n ms rhs = .ok st)
    (hl : st.ty = .orderZero ∨ st.ty = .linConst ∨ st.ty = .linVar)
    {K : Type} [Field K] [CharZero K] (I : Interp K) (X : K → K) (ρ : String → K) (v : K) :
    eval (withX I X) (update ρ n v) rhs
      = ∑ i ∈ Finset.range st.coeffs.length, eval (withX I X) (update ρ n v) (st.coeffs.getD i (.num 0)) * X (v - i)
        + eval (withX I X) (update ρ n v) st.inhom := by
  have hs := classify_steps h
  have hd : divisors n rhs = [] := by
    by_contra h1
    have := (C36_type h).1.mpr h1
    rw [this] at hl; simp at hl
  have hv := steps_val hs (by change (divisors n rhs).Nodup; rw [hd]; simp) (by simp [initSt]) I X ρ v
  rw [eval_addends] at hv
  rw [stVal, steps_homog hs hd] at hv
  have h0 : stVal I n X ρ v initSt = 0 := by simp [stVal, initSt, coeffSum, eval]
  rw [h0, zero_add] at hv
  rw [← hv]
  simp [initSt, coeffSum]

/-- **C36**, solutions: the sequences satisfying the given recurrence are exactly those satisfying the recorded one. -/
theorem C36_solutions {n : String} {ms : ℕ} {rhs : Expr} {st : St} (h : classify n ms rhs = .ok st)
    (hl : st.ty = .orderZero ∨ st.ty = .linConst ∨ st.ty = .linVar)
    {K : Type} [Field K] [CharZero K] (I : Interp K) (X : K → K) (ρ : String → K) (start : ℕ) :
    SolvesAt I n rhs ρ X start ↔ ∀ N : ℕ, start ≤ N →
      X N = ∑ i ∈ Finset.range st.coeffs.length,
          eval (withX I X) (update ρ n N) (st.coeffs.getD i (.num 0)) * X ((N : K) - i)
        + eval (withX I X) (update ρ n N) st.inhom := by
  unfold SolvesAt
  simp only [C36_identity h hl]

/-- **C37** (what the code guarantees): a right-hand side recorded as a functional equation has, for every function `X`
and at every `n = v`, the value `∑ a_i X(v / b_i) + p(v)`, if no divisor is repeated.  Missing: repeated divisors, for
which it is false (`C37_repeated_refuted`). -/
theorem C37_identity_partial {n : String} {ms : ℕ} {rhs : Expr} {st : St} (h : classify n ms rhs = .ok st)
    (hf : st.ty = .functional) (hnd : (divisors n rhs).Nodup)
    {K : Type} [Field K] [CharZero K] (I : Interp K) (X : K → K) (ρ : String → K) (v : K) :
    eval (withX I X) (update ρ n v) rhs
      = (st.homog.map fun p => eval (withX I X) (update ρ n v) p.2 * X (v / p.1)).sum
        + eval (withX I X) (update ρ n v) st.inhom := by
  have hs := classify_steps h
  have hd : decrements n rhs = [] := by
    by_contra h1
    have h3 := (steps_type hs).2.2.1.mpr (.inr (.inr h1))
    rw [hf] at h3; simp at h3
  have hv := steps_val hs hnd (by simp [initSt]) I X ρ v
  rw [eval_addends] at hv
  rw [stVal, steps_coeffs hs hd] at hv
  have h0 : stVal I n X ρ v initSt = 0 := by simp [stVal, initSt, coeffSum, eval]
  rw [h0, zero_add] at hv
  rw [← hv]
  simp [initSt, coeffSum]

/-! ### The recorded parts do not contain the unknown -/

theorem hasXOf_addE {n : String} {a b : Expr} (ha : hasXOf (.sym n) a = false) (hb : hasXOf (.sym n) b = false) :
    hasXOf (.sym n) (addE a b) = false := by
  cases a <;> cases b <;> simp only [addE] <;> (try split) <;> simp_all [hasXOf]

theorem hasXOf_mulE {n : String} {a b : Expr} (ha : hasXOf (.sym n) a = false) (hb : hasXOf (.sym n) b = false) :
    hasXOf (.sym n) (mulE a b) = false := by
  cases a <;> cases b <;> simp only [mulE] <;> (try split) <;> (try split) <;> simp_all [hasXOf]

theorem has_addE {n : String} {a b : Expr} (ha : has (.sym n) a = false) (hb : has (.sym n) b = false) :
    has (.sym n) (addE a b) = false := by
  cases a <;> cases b <;> simp only [addE] <;> (try split) <;> simp_all [has]

theorem has_mulE {n : String} {a b : Expr} (ha : has (.sym n) a = false) (hb : has (.sym n) b = false) :
    has (.sym n) (mulE a b) = false := by
  cases a <;> cases b <;> simp only [mulE] <;> (try split) <;> (try split) <;> simp_all [has]

theorem fold_forall {P : Expr → Prop} (h1 : P (.num 1)) (hmul : ∀ a b, P a → P b → P (mulE a b)) (l : List Expr)
    (hl : ∀ f ∈ l, P f) : P (l.foldr (fun f acc => mulE acc f) (.num 1)) := by
  induction l with
  | nil => exact h1
  | cons b l ih => exact hmul _ _ (ih fun f hf => hl f (List.mem_cons_of_mem _ hf)) (hl b (List.mem_cons_self ..))

theorem piece_forall {P : Expr → Prop} (h1 : P (.num 1)) (hmul : ∀ a b, P a → P b → P (mulE a b)) {n : String}
    {a : Expr} {p : Piece} (hp : PieceOf n a p) (h : ∀ f ∈ others a, P f) : P p.coeff := by
  rcases hp.coeff with ⟨e1, e2, e3, -⟩ | e1
  · rw [e1]
    apply h
    have hf : factors a = [a] := by
      cases a <;> simp [factors]
      exact absurd rfl (e3 _)
    simp [others, hf, e2]
  · rw [e1]; exact fold_forall h1 hmul _ h

/-- A property kept by sums and products is inherited by everything recorded, if the factors have it. -/
theorem steps_forall {P : Expr → Prop} (h0 : P (.num 0)) (h1 : P (.num 1)) (hadd : ∀ a b, P a → P b → P (addE a b))
    (hmul : ∀ a b, P a → P b → P (mulE a b)) {n : String} {k : ℕ} {as : List Expr} {st st' : St} (h : Steps n k as st st')
    (hp : ∀ a ∈ as, ∀ f ∈ others a, (∀ g ∈ factors a, kindOf n g ≠ .nested ∧ kindOf n g ≠ .legal) → P f)
    (hst : (∀ c ∈ st.coeffs, P c) ∧ (∀ p ∈ st.homog, P p.2) ∧ P st.inhom) :
    (∀ c ∈ st'.coeffs, P c) ∧ (∀ p ∈ st'.homog, P p.2) ∧ P st'.inhom := by
  induction h with
  | nil => exact hst
  | @cons k a as st st1 st2 p hty hk hpo ha hs ih =>
    apply ih (fun b hb => hp b (List.mem_cons_of_mem _ hb))
    have hc : P p.coeff := piece_forall h1 hmul hpo fun f hf => hp a (List.mem_cons_self ..) f hf hk
    obtain ⟨s1, s2, s3⟩ := hst
    cases p with
    | dec i c => obtain ⟨-, rfl⟩ := ha; exact ⟨insertCoeff_forall h0 hadd hc i s1, s2, s3⟩
    | div d c =>
      obtain ⟨-, rfl⟩ := ha
      refine ⟨s1, ?_, s3⟩
      intro q hq
      simp only [mapInsert] at hq
      split_ifs at hq
      · exact s2 q hq
      · rcases List.mem_append.mp hq with h | h
        · exact s2 q h
        · simp at h; rw [h]; exact hc
    | inh e =>
      have ha : st1 = addInhom e st := ha
      subst ha; exact ⟨s1, s2, hadd _ _ s3 hc⟩

theorem steps_coeffs_forall {P : Expr → Prop} (h0 : P (.num 0)) (h1 : P (.num 1))
    (hadd : ∀ a b, P a → P b → P (addE a b))
    (hmul : ∀ a b, P a → P b → P (mulE a b)) {n : String} {k : ℕ} {as : List Expr} {st st' : St} (h : Steps n k as st st')
    (hp : ∀ a ∈ as, (factors a).filterMap (xDecr n) ≠ [] → ∀ f ∈ others a, P f)
    (hst : ∀ c ∈ st.coeffs, P c) : ∀ c ∈ st'.coeffs, P c := by
  induction h with
  | nil => exact hst
  | @cons k a as st st1 st2 p hty hk hpo ha hs ih =>
    apply ih (fun b hb => hp b (List.mem_cons_of_mem _ hb))
    cases p with
    | dec i c =>
      obtain ⟨-, rfl⟩ := ha
      refine insertCoeff_forall h0 hadd ?_ i hst
      exact piece_forall h1 hmul hpo (hp a (List.mem_cons_self ..) (by rw [hpo.decs]; simp [Piece.decs]))
    | div d c => obtain ⟨-, rfl⟩ := ha; exact hst
    | inh e =>
      have ha : st1 = addInhom e st := ha
      subst ha; exact hst

/-- **C36**, constant coefficients: if the recurrence is recorded as one with constant coefficients, no recorded
coefficient contains `n`. -/
theorem C36_constant {n : String} {ms : ℕ} {rhs : Expr} {st : St} (h : classify n ms rhs = .ok st)
    (hl : st.ty = .linConst) : ∀ c ∈ st.coeffs, has (.sym n) c = false := by
  refine steps_coeffs_forall (P := fun c => has (.sym n) c = false) (by simp [has]) (by simp [has])
    (fun a b => has_addE) (fun a b => has_mulE) (classify_steps h) ?_ (by simp [initSt])
  intro a ha hd f hf
  have h1 := ((C36_type h).2.2.1.mp hl).2
  by_contra h2
  exact h1 ⟨a, ha, hd, List.any_eq_true.mpr ⟨f, hf, by simpa using h2⟩⟩

/-- The right-hand side is expanded, and `x(n)` is neither the base nor the exponent of a power. -/
def Expanded (n : String) (rhs : Expr) : Prop :=
  ∀ a ∈ addends rhs, ∀ f ∈ factors a, (∀ l, f ≠ .add l) ∧ (∀ l, f ≠ .mul l) ∧ (∀ b, f ≠ .pow (xn n) b) ∧
    (∀ b, f ≠ .pow b (xn n)) ∧ (∀ l, f = .fn .x l → l.length = 1)

theorem kind_known {n : String} {f : Expr} (h1 : (∀ l, f ≠ .add l)) (h2 : ∀ l, f ≠ .mul l) (h3 : ∀ b, f ≠ .pow (xn n) b)
    (h4 : ∀ b, f ≠ .pow b (xn n)) (h5 : ∀ l, f = .fn .x l → l.length = 1) (hX : isX f = false)
    (hk : kindOf n f ≠ .nested ∧ kindOf n f ≠ .legal) : hasXOf (.sym n) f = false := by
  cases f with
  | num q => simp [hasXOf]
  | const c => simp [hasXOf]
  | sym s => simp [hasXOf]
  | add l => exact absurd rfl (h1 l)
  | mul l => exact absurd rfl (h2 l)
  | pow b e =>
    simp only [kindOf] at hk
    by_cases hb : hasXOf (.sym n) b = true
    · rw [if_pos hb] at hk
      by_cases hx : b = xn n
      · exact absurd (by rw [hx]) (h3 e)
      · rw [if_neg hx] at hk; simp at hk
    · rw [if_neg hb] at hk
      by_cases he : hasXOf (.sym n) e = true
      · rw [if_pos he] at hk
        by_cases hx : e = xn n
        · exact absurd (by rw [hx]) (h4 b)
        · rw [if_neg hx] at hk; simp at hk
      · simp [hasXOf, hb, he]
  | fn g l =>
    have hg : g ≠ .x := by
      rintro rfl
      have := h5 l rfl
      obtain ⟨a, rfl⟩ := List.length_eq_one_iff.mp this
      simp [isX] at hX
    simp only [kindOf, hg, if_false] at hk
    have h6 : ¬l.any (hasXOf (.sym n)) = true := by
      intro h; rw [if_pos h] at hk; simp at hk
    cases l with
    | nil => simp [hasXOf, hg]
    | cons a l => simpa [hasXOf, hg] using h6
  | binder k i lo up body =>
    simp only [kindOf] at hk
    by_contra h6
    rw [hasXOf, Bool.not_eq_false] at h6
    rw [if_pos h6] at hk
    simp at hk

/-- **C65** (what the code guarantees): if the right-hand side is expanded and `x(n)` occurs in no power, nothing recorded contains the
unknown applied to an expression with `n`: the inhomogeneous part is known.  Missing: powers of `x(n)` in products. -/
theorem C65_known_partial {n : String} {ms : ℕ} {rhs : Expr} {st : St} (h : classify n ms rhs = .ok st) (he : Expanded n rhs) :
    (∀ c ∈ st.coeffs, hasXOf (.sym n) c = false) ∧ (∀ p ∈ st.homog, hasXOf (.sym n) p.2 = false) ∧
      hasXOf (.sym n) st.inhom = false := by
  refine steps_forall (P := fun c => hasXOf (.sym n) c = false) (by simp [hasXOf]) (by simp [hasXOf])
    (fun a b => hasXOf_addE) (fun a b => hasXOf_mulE) (classify_steps h) ?_ (by simp [initSt, hasXOf])
  intro a ha f hf hk
  simp only [others, List.mem_filter, Bool.not_eq_eq_eq_not, Bool.not_true] at hf
  obtain ⟨e1, e2, e3, e4, e5⟩ := he a ha f hf.1
  exact kind_known e1 e2 e3 e4 e5 hf.2 (hk f hf.1)

/-! ### What goes wrong -/

/-- **C65** is false without that condition: `x(n) = 2 x(n)^2` is recorded as a recurrence of order zero whose
"known" part is `2 x(n)^2`. -/
theorem C65_power_refuted : ∃ (rhs : Expr) (st : St), classify "n" 1000 rhs = .ok st ∧ st.ty = .orderZero ∧
    hasXOf (.sym "n") st.inhom = true :=
  ⟨.mul [.num 2, .pow (xn "n") (.num 2)], _, by
    simp [classify, addends, loopFrom, summand, findNonLinear, nlStep, kindOf, isXn, xn, hasXOf, has, product, factorStep,
      isWeightedSum, finishProduct]; rfl, by
    simp [addInhom, initSt], by
    simp [addInhom, initSt, mulE, addE, hasXOf, has]⟩

theorem getDivisor_mk (n : String) (q : ℚ) (h1 : q.den ≠ 1) (h2 : 0 < q) :
    getDivisor n (.mul [.num q, .sym n]) = some (1 / q) := by
  simp [getDivisor, h1, h2]

theorem getDecrement_mk (n : String) (q : ℚ) (h1 : q.den = 1) :
    getDecrement n (.add [.sym n, .num q]) = some (-q) := by
  simp [getDecrement, h1]

/-- `x(n/2)`. -/
def xHalf : Expr := .fn .x [.mul [.num (1/2), .sym "n"]]

theorem half_den : (1/2 : ℚ).den ≠ 1 := by norm_num

/-- **C37** is false for repeated divisors: in `x(n) = x(n/2) + n x(n/2)` the second term is lost. -/
theorem C37_repeated_refuted : ∃ (rhs : Expr) (st : St), classify "n" 1000 rhs = .ok st ∧ st.ty = .functional ∧
    ∃ (X : ℚ → ℚ) (v : ℚ), eval (withX ratInterp X) (update (fun _ => 0) "n" v) rhs
      ≠ (st.homog.map fun p => eval (withX ratInterp X) (update (fun _ => 0) "n" v) p.2 * X (v / p.1)).sum
        + eval (withX ratInterp X) (update (fun _ => 0) "n" v) st.inhom := by
  refine ⟨.add [xHalf, .mul [.sym "n", xHalf]], ⟨.functional, .num 0, 0, [], 0, [(1 / (1/2), .num 1)]⟩, ?_, rfl,
    fun _ => 1, 1, ?_⟩
  · have hp : hasParameters "n" (.mul [.num (1/2), .sym "n"]) = false := by simp [hasParameters]
    have hh : has (.sym "n") (.mul [.num (1/2), .sym "n"]) = true := by simp [has]
    have hx : hasXOf (.sym "n") (.mul [.num (1/2), .sym "n"]) = false := by simp [hasXOf]
    have hs : has (.sym "n") (.sym "n") = true := by simp [has]
    have hn : (Expr.mul [.num (1/2), .sym "n"]) ≠ .sym "n" := by simp
    have hd := getDivisor_mk "n" (1/2) half_den (by norm_num)
    have h1 : summand "n" 1000 0 xHalf initSt = .ok ⟨.functional, .num 0, 0, [], 0, [(1 / (1/2), .num 1)]⟩ := by
      simp only [summand, xHalf, findNonLinear, kindOf, List.any_cons, List.any_nil, hx, Bool.or_false, Bool.false_eq_true,
        if_false, single, singleX, hn, hh, hp, Bool.not_true, isAdd2, isMul2, hd, if_true]
      simp [initSt, St.fresh, mapInsert]
    have h2 : summand "n" 1000 1 (.mul [.sym "n", xHalf]) ⟨.functional, .num 0, 0, [], 0, [(1 / (1/2), .num 1)]⟩
        = .ok ⟨.functional, .num 0, 0, [], 0, [(1 / (1/2), .num 1)]⟩ := by
      simp only [summand, xHalf, findNonLinear, kindOf, List.any_cons, List.any_nil, hx, Bool.or_false, Bool.false_eq_true,
        if_false, nlStep, List.foldr_cons, List.foldr_nil, isXn, hh, if_true, reduceCtorEq, product, factorStep, factorX,
        hn, hp, Bool.not_true, isAdd2, isMul2, hd, isWeightedSum, hs]
      simp [St.fresh, St.linear, mapInsert, finishProduct]
    simp only [classify, addends, loopFrom, h1, h2]
  · have h1 : ∀ (ρ : String → ℚ), eval (withX ratInterp fun _ => 1) ρ xHalf = 1 := by
      intro ρ; rw [xHalf, eval_x]
    simp [eval, h1]

/-! ### Acceptance and refusal -/

/-- A known factor: not `x(...)`, no unknown inside, not a sum over the unknown. -/
def Known (n : String) (f : Expr) : Prop := isX f = false ∧ kindOf n f = .linear ∧ isWeightedSum n f = false

/-- `x(n - d)` with `0 ≤ d`, smaller than the sizes of the vectors. -/
def IsShift (n : String) (ms : ℕ) (f : Expr) : Prop :=
  ∃ d : ℕ, d < ms ∧ d < 9223372036854775807 ∧ f = .fn .x [.add [.sym n, .num (-d)]]

/-- `x(q n)` with `q > 0` not an integer. -/
def IsScale (n : String) (f : Expr) : Prop := ∃ q : ℚ, q.den ≠ 1 ∧ 0 < q ∧ f = .fn .x [.mul [.num q, .sym n]]

theorem shift_facts {n : String} {ms : ℕ} {f : Expr} (h : IsShift n ms f) : isX f = true ∧ kindOf n f = .linear := by
  obtain ⟨d, -, -, rfl⟩ := h
  simp [isX, kindOf, hasXOf]

theorem scale_facts {n : String} {f : Expr} (h : IsScale n f) : isX f = true ∧ kindOf n f = .linear := by
  obtain ⟨d, -, -, rfl⟩ := h
  simp [isX, kindOf, hasXOf]

theorem nl_linear (n : String) (l : List Expr) (h : ∀ f ∈ l, kindOf n f = .linear) (hc : l.countP (isXn n) ≤ 1) :
    l.foldr (nlStep n) (false, .linear, false) = (false, .linear, decide (l.countP (isXn n) = 1)) := by
  induction l with
  | nil => simp
  | cons a l ih =>
    have ha := h a (List.mem_cons_self ..)
    rw [List.countP_cons] at hc
    rw [List.foldr_cons, ih (fun f hf => h f (List.mem_cons_of_mem _ hf)) (by omega)]
    unfold nlStep
    by_cases hx : isXn n a = true
    · rw [if_pos hx] at hc
      have h0 : l.countP (isXn n) = 0 := by omega
      simp only [ha, reduceCtorEq, if_false, hx, if_true, h0, Bool.false_eq_true, List.countP_cons]
      simp
    · simp [ha, hx]

theorem computeOrder_ok {ms d order : ℕ} (h1 : d < ms) (h2 : d < 9223372036854775807) :
    ∃ o, computeOrder ms (d : ℚ) order = .ok (d, o) := by
  unfold computeOrder
  have e1 : ¬((d : ℚ) < 0) := by push Not; positivity
  have e2 : ¬((9223372036854775807 : ℚ) ≤ d ∨ (ms : ℚ) ≤ d) := by
    push Not
    exact ⟨by exact_mod_cast h2, by exact_mod_cast h1⟩
  rw [if_neg e1, if_neg e2]
  dsimp only
  rw [Rat.num_natCast, Int.toNat_natCast]
  exact ⟨_, rfl⟩

theorem factorX_shift {n : String} {ms k : ℕ} {arg : Expr} {l : Loop} (h : IsShift n ms (.fn .x [arg]))
    (hty : l.st.ty ≠ .functional) : ∃ l', factorX n ms k arg l = .ok l' ∧ l'.st.ty ≠ .functional := by
  obtain ⟨d, h1, h2, h3⟩ := h
  simp only [Expr.fn.injEq, List.cons.injEq, and_true, true_and] at h3
  subst h3
  obtain ⟨o, ho⟩ := computeOrder_ok (order := l.st.order) h1 h2
  have hd := getDecrement_mk n (-(d : ℚ)) (by rw [Rat.neg_den]; exact Rat.den_natCast _)
  rw [neg_neg] at hd
  unfold factorX
  rw [if_neg (by simp), if_neg (by simp [has]), if_neg (by simp [hasParameters]), if_pos (show isAdd2 _ = true from rfl), hd]
  simp only [ho, if_neg hty]
  exact ⟨_, rfl, hty⟩

theorem factors_ok {n : String} {ms k : ℕ} {st : St} (hty : st.ty ≠ .functional) (fs : List Expr)
    (hf : ∀ f ∈ fs, Known n f ∨ IsShift n ms f) :
    ∃ l, fs.foldr (factorStep n ms k) (.ok ⟨.num 1, false, false, 0, 0, st⟩) = .ok l ∧ l.st.ty ≠ .functional := by
  induction fs with
  | nil => exact ⟨_, rfl, hty⟩
  | cons f fs ih =>
    obtain ⟨l, hl, ht⟩ := ih fun g hg => hf g (List.mem_cons_of_mem _ hg)
    rw [List.foldr_cons, hl]
    unfold factorStep
    dsimp only
    split
    · rename_i arg
      rcases hf _ (List.mem_cons_self ..) with h | h
      · have := h.1; simp [isX] at this
      · exact factorX_shift h ht
    · rcases hf f (List.mem_cons_self ..) with h | h
      · rw [h.2.2]; exact ⟨_, rfl, ht⟩
      · obtain ⟨d, -, -, rfl⟩ := h
        rename_i hne; exact absurd rfl (hne _)

/-- The addend is a product of known factors and at most one `x(n - d)`. -/
def LinearAddend (n : String) (ms : ℕ) (a : Expr) : Prop :=
  (∀ f ∈ factors a, Known n f ∨ IsShift n ms f) ∧ (factors a).countP (isXn n) ≤ 1

theorem summand_ok {n : String} {ms k : ℕ} {a : Expr} {st : St} (hty : st.ty ≠ .functional) (ha : LinearAddend n ms a) :
    ∃ st', summand n ms k a st = .ok st' ∧ st'.ty ≠ .functional := by
  obtain ⟨h1, h2⟩ := ha
  have hk : ∀ f ∈ factors a, kindOf n f = .linear := fun f hf => by
    rcases h1 f hf with h | h
    · exact h.2.1
    · exact (shift_facts h).2
  have hfn : findNonLinear n a = .linear := by
    cases a with
    | mul l => rw [findNonLinear, nl_linear n l hk h2]
    | _ => exact hk _ (List.mem_singleton.mpr rfl)
  have hin : ∀ e (s : St), s.ty ≠ .functional → (addInhom e s).ty ≠ .functional := by
    intro e s h
    simp only [addInhom]
    split_ifs
    · simp
    · exact h
  unfold summand
  rw [hfn]
  dsimp only
  split
  · rename_i fs
    obtain ⟨l, hl, ht⟩ := factors_ok (k := k) hty fs h1
    simp only [product, hl]
    refine ⟨_, rfl, ?_⟩
    unfold finishProduct
    by_cases h3 : l.hasX = true
    · rw [if_pos h3, if_neg ht]
      dsimp only
      split_ifs <;> simp
    · rw [if_neg h3]; exact hin _ _ ht
  · rename_i hm
    have hfa : factors a = [a] := by
      cases a <;> simp [factors]
      exact absurd rfl (hm _)
    have ha1 := h1 a (by simp [hfa])
    unfold single
    split
    · rename_i arg
      rcases ha1 with h | h
      · have := h.1; simp [isX] at this
      · obtain ⟨d, b1, b2, h3⟩ := h
        simp only [Expr.fn.injEq, List.cons.injEq, and_true, true_and] at h3
        subst h3
        obtain ⟨o, ho⟩ := computeOrder_ok (order := st.order) b1 b2
        have hd := getDecrement_mk n (-(d : ℚ)) (by rw [Rat.neg_den]; exact Rat.den_natCast _)
        rw [neg_neg] at hd
        unfold singleX
        rw [if_neg (by simp), if_neg (by simp [has]), if_neg (by simp [hasParameters]), if_pos (show isAdd2 _ = true from rfl), hd]
        simp only [ho]
        rw [if_neg (by simp [hty])]
        refine ⟨_, rfl, ?_⟩
        simp only
        split_ifs
        · simp
        · exact hty
    · rcases ha1 with h | h
      · rw [if_neg (by simp [h.2.2])]
        exact ⟨_, rfl, hin _ _ hty⟩
      · obtain ⟨d, -, -, rfl⟩ := h
        rename_i hne; exact absurd rfl (hne _)

/-- **C66**, acceptance: every sum of products of known factors and at most one `x(n - d)` each, with decrements that fit
in the vectors, is accepted and recorded as a linear recurrence of finite order (or of order zero). -/
theorem C66_accepts_linear {n : String} {ms : ℕ} {rhs : Expr} (h0 : addends rhs ≠ [])
    (h : ∀ a ∈ addends rhs, LinearAddend n ms a) :
    ∃ st, classify n ms rhs = .ok st ∧ (st.ty = .orderZero ∨ st.ty = .linConst ∨ st.ty = .linVar) := by
  have key : ∀ (as : List Expr) (k : ℕ) (st : St), st.ty ≠ .functional → (∀ a ∈ as, LinearAddend n ms a) →
      ∃ st', loopFrom n ms k as st = .ok st' ∧ st'.ty ≠ .functional := by
    intro as
    induction as with
    | nil => intro k st hty _; exact ⟨st, rfl, hty⟩
    | cons a as ih =>
      intro k st hty ha
      obtain ⟨st1, h1, h2⟩ := summand_ok (k := k) hty (ha a (List.mem_cons_self ..))
      obtain ⟨st2, h3, h4⟩ := ih (k + 1) st1 h2 fun b hb => ha b (List.mem_cons_of_mem _ hb)
      exact ⟨st2, by rw [loopFrom, h1]; exact h3, h4⟩
  obtain ⟨st, h1, h2⟩ := key (addends rhs) 0 initSt (by simp [initSt]) h
  refine ⟨st, h1, ?_⟩
  rcases steps_tyOk (classify_steps h1) (.inl rfl) with h | h | h | h | h
  · exact absurd ((C36_type h1).2.2.2.2.mp h) h0
  · exact .inl h
  · exact .inr (.inl h)
  · exact .inr (.inr h)
  · exact absurd h h2


/-- The addend is a product of known factors and at most one `x(q n)`. -/
def ScaledAddend (n : String) (a : Expr) : Prop :=
  (∀ f ∈ factors a, Known n f ∨ IsScale n f) ∧ (factors a).countP (isXn n) ≤ 1

/-- No decrement met so far. -/
def NoLin (ty : RType) : Prop := ty = .unknown ∨ ty = .orderZero ∨ ty = .functional

theorem noLin_fresh {st : St} (h : NoLin st.ty) : ¬(!st.fresh && st.linear) = true := by
  rcases h with h | h | h <;> simp [St.fresh, St.linear, h]

theorem noLin_ty {st : St} (h : NoLin st.ty) : (if st.fresh = true then RType.functional else st.ty) = .functional := by
  rcases h with h | h | h <;> simp [St.fresh, h]

theorem factorX_scale {n : String} {ms k : ℕ} {arg : Expr} {l : Loop} (h : IsScale n (.fn .x [arg]))
    (hty : NoLin l.st.ty) : ∃ l', factorX n ms k arg l = .ok l' ∧ l'.st.ty = .functional ∧ l'.hasX = true := by
  obtain ⟨q, h1, h2, h3⟩ := h
  simp only [Expr.fn.injEq, List.cons.injEq, and_true, true_and] at h3
  subst h3
  have hd := getDivisor_mk n q h1 h2
  unfold factorX
  rw [if_neg (by simp), if_neg (by simp [has]), if_neg (by simp [hasParameters]),
    if_neg (show ¬isAdd2 _ = true by simp [isAdd2]), if_pos (show isMul2 _ = true from rfl), hd]
  dsimp only
  rw [if_neg (noLin_fresh hty)]
  exact ⟨_, rfl, noLin_ty hty, rfl⟩

theorem factors_scale_ok {n : String} {ms k : ℕ} {st : St} (hty : NoLin st.ty) (fs : List Expr)
    (hf : ∀ f ∈ fs, Known n f ∨ IsScale n f) :
    ∃ l, fs.foldr (factorStep n ms k) (.ok ⟨.num 1, false, false, 0, 0, st⟩) = .ok l ∧ NoLin l.st.ty ∧
      (l.hasX = true → l.st.ty = .functional) := by
  induction fs with
  | nil => exact ⟨_, rfl, hty, by simp⟩
  | cons f fs ih =>
    obtain ⟨l, hl, ht, hx⟩ := ih fun g hg => hf g (List.mem_cons_of_mem _ hg)
    rw [List.foldr_cons, hl]
    unfold factorStep
    dsimp only
    split
    · rename_i arg
      rcases hf _ (List.mem_cons_self ..) with h | h
      · have := h.1; simp [isX] at this
      · obtain ⟨l', e1, e2, e3⟩ := factorX_scale (ms := ms) (k := k) h ht
        exact ⟨l', e1, .inr (.inr e2), fun _ => e2⟩
    · rcases hf f (List.mem_cons_self ..) with h | h
      · rw [h.2.2]; exact ⟨_, rfl, ht, hx⟩
      · obtain ⟨d, -, -, rfl⟩ := h
        rename_i hne; exact absurd rfl (hne _)

theorem summand_scale_ok {n : String} {ms k : ℕ} {a : Expr} {st : St} (hty : NoLin st.ty) (ha : ScaledAddend n a) :
    ∃ st', summand n ms k a st = .ok st' ∧ NoLin st'.ty := by
  obtain ⟨h1, h2⟩ := ha
  have hk : ∀ f ∈ factors a, kindOf n f = .linear := fun f hf => by
    rcases h1 f hf with h | h
    · exact h.2.1
    · exact (scale_facts h).2
  have hfn : findNonLinear n a = .linear := by
    cases a with
    | mul l => rw [findNonLinear, nl_linear n l hk h2]
    | _ => exact hk _ (List.mem_singleton.mpr rfl)
  have hin : ∀ e (s : St), NoLin s.ty → NoLin (addInhom e s).ty := by
    intro e s h
    simp only [addInhom]
    split_ifs
    · simp [NoLin]
    · exact h
  unfold summand
  rw [hfn]
  dsimp only
  split
  · rename_i fs
    obtain ⟨l, hl, ht, hx⟩ := factors_scale_ok (ms := ms) (k := k) hty fs h1
    simp only [product, hl]
    refine ⟨_, rfl, ?_⟩
    unfold finishProduct
    by_cases h3 : l.hasX = true
    · rw [if_pos h3, if_pos (hx h3)]; exact ht
    · rw [if_neg h3]; exact hin _ _ ht
  · rename_i hm
    have hfa : factors a = [a] := by
      cases a <;> simp [factors]
      exact absurd rfl (hm _)
    have ha1 := h1 a (by simp [hfa])
    unfold single
    split
    · rename_i arg
      rcases ha1 with h | h
      · have := h.1; simp [isX] at this
      · obtain ⟨q, b1, b2, h3⟩ := h
        simp only [Expr.fn.injEq, List.cons.injEq, and_true, true_and] at h3
        subst h3
        have hd := getDivisor_mk n q b1 b2
        unfold singleX
        rw [if_neg (by simp), if_neg (by simp [has]), if_neg (by simp [hasParameters]),
          if_neg (show ¬isAdd2 _ = true by simp [isAdd2]), if_pos (show isMul2 _ = true from rfl), hd]
        dsimp only
        rw [if_neg (noLin_fresh hty)]
        refine ⟨_, rfl, ?_⟩
        dsimp only
        rw [noLin_ty hty]
        simp [NoLin]
    · rcases ha1 with h | h
      · rw [if_neg (by simp [h.2.2])]
        exact ⟨_, rfl, hin _ _ hty⟩
      · obtain ⟨d, -, -, rfl⟩ := h
        rename_i hne; exact absurd rfl (hne _)

/-- **C66**, acceptance: every sum of products of known factors and at most one `x(q n)` each, `q > 0` not an integer,
is accepted; it is recorded as a functional equation if there is such a term. -/
theorem C66_accepts_functional {n : String} {ms : ℕ} {rhs : Expr} (h : ∀ a ∈ addends rhs, ScaledAddend n a) :
    ∃ st, classify n ms rhs = .ok st ∧ (divisors n rhs ≠ [] → st.ty = .functional) := by
  have key : ∀ (as : List Expr) (k : ℕ) (st : St), NoLin st.ty → (∀ a ∈ as, ScaledAddend n a) →
      ∃ st', loopFrom n ms k as st = .ok st' := by
    intro as
    induction as with
    | nil => intro k st hty _; exact ⟨st, rfl⟩
    | cons a as ih =>
      intro k st hty ha
      obtain ⟨st1, h1, h2⟩ := summand_scale_ok (ms := ms) (k := k) hty (ha a (List.mem_cons_self ..))
      obtain ⟨st2, h3⟩ := ih (k + 1) st1 h2 fun b hb => ha b (List.mem_cons_of_mem _ hb)
      exact ⟨st2, by rw [loopFrom, h1]; exact h3⟩
  obtain ⟨st, h1⟩ := key (addends rhs) 0 initSt (.inl rfl) h
  exact ⟨st, h1, fun h2 => (C36_type h1).1.mpr h2⟩

/-! ### Reasons of failure -/

/-- The defect of a factor that each failure points to. -/
def Defect (n : String) (ms : ℕ) : Fail → Expr → Prop
  | .null, f => f = .fn .x [.sym n]
  | .negative, f => ∃ d, xDecr n f = some d ∧ d < 0
  | .huge, f => ∃ d, xDecr n f = some d ∧ (9223372036854775807 ≤ d ∨ (ms : ℚ) ≤ d)
  | .nonInteger, f => xDecr n f = none ∧ ∃ a b, f = .fn .x [.add [a, b]]
  | .malformed, f => kindOf n f = .nested ∨ ∃ a, f = .fn .x [a] ∧ has (.sym n) a = false
  | .indeterminate, f => ∃ e, f = .pow (xn n) e
  | .unsolvable, f => ∃ b, f = .pow b (xn n)
  | .tooComplex, f => isX f = true ∨ isWeightedSum n f = true

theorem isAdd2_form {e : Expr} (h : isAdd2 e = true) : ∃ a b, e = .add [a, b] := by
  unfold isAdd2 at h
  split at h
  · exact ⟨_, _, rfl⟩
  · simp at h

theorem computeOrder_err {ms : ℕ} {d : ℚ} {o : ℕ} {f : Fail} (h : computeOrder ms d o = .error f) :
    f = .negative ∧ d < 0 ∨ f = .huge ∧ (9223372036854775807 ≤ d ∨ (ms : ℚ) ≤ d) := by
  unfold computeOrder at h
  split_ifs at h with h1 h2
  · left; cases h; exact ⟨rfl, h1⟩
  · right; cases h; exact ⟨rfl, h2⟩

theorem singleX_fail {n : String} {ms k : ℕ} {arg : Expr} {st : St} {f : Fail} (h : singleX n ms k arg st = .fail f) :
    Defect n ms f (.fn .x [arg]) := by
  unfold singleX at h
  rcases ite_ok h with ⟨h1, h'⟩ | ⟨-, h'⟩
  · cases h'; rw [h1]; rfl
  clear h; rename' h' => h
  rcases ite_ok h with ⟨h1, h'⟩ | ⟨-, h'⟩
  · cases h'; exact .inr ⟨arg, rfl, by simpa using h1⟩
  clear h; rename' h' => h
  rcases ite_ok h with ⟨h1, h'⟩ | ⟨-, h'⟩
  · cases h'; exact .inl rfl
  clear h; rename' h' => h
  split at h
  · rename_i hadd
    split at h
    · rename_i hd
      cases h
      obtain ⟨a, b, rfl⟩ := isAdd2_form hadd
      exact ⟨hd, a, b, rfl⟩
    · rename_i d hd
      split at h
      · rename_i e he
        cases h
        rcases computeOrder_err he with ⟨rfl, h1⟩ | ⟨rfl, h1⟩
        · exact ⟨d, hd, h1⟩
        · exact ⟨d, hd, h1⟩
      · rcases ite_ok h with ⟨h6, h'⟩ | ⟨h6, h'⟩
        · cases h'; exact .inl rfl
        · cases h'
  split at h
  · split at h
    · cases h; exact .inl rfl
    · rcases ite_ok h with ⟨h6, h'⟩ | ⟨h6, h'⟩
      · cases h'; exact .inl rfl
      · cases h'
  · cases h; exact .inl rfl

theorem factorX_fail {n : String} {ms k : ℕ} {arg : Expr} {l : Loop} {f : Fail} (h : factorX n ms k arg l = .fail f) :
    Defect n ms f (.fn .x [arg]) := by
  unfold factorX at h
  rcases ite_ok h with ⟨h1, h'⟩ | ⟨-, h'⟩
  · cases h'; rw [h1]; rfl
  clear h; rename' h' => h
  rcases ite_ok h with ⟨h1, h'⟩ | ⟨-, h'⟩
  · cases h'; exact .inr ⟨arg, rfl, by simpa using h1⟩
  clear h; rename' h' => h
  rcases ite_ok h with ⟨h1, h'⟩ | ⟨-, h'⟩
  · cases h'; exact .inl rfl
  clear h; rename' h' => h
  split at h
  · rename_i hadd
    split at h
    · rename_i hd
      cases h
      obtain ⟨a, b, rfl⟩ := isAdd2_form hadd
      exact ⟨hd, a, b, rfl⟩
    · rename_i d hd
      split at h
      · rename_i e he
        cases h
        rcases computeOrder_err he with ⟨rfl, h1⟩ | ⟨rfl, h1⟩
        · exact ⟨d, hd, h1⟩
        · exact ⟨d, hd, h1⟩
      · rcases ite_ok h with ⟨h6, h'⟩ | ⟨h6, h'⟩
        · cases h'; exact .inl rfl
        · cases h'
  split at h
  · split at h
    · cases h; exact .inl rfl
    · rcases ite_ok h with ⟨h6, h'⟩ | ⟨h6, h'⟩
      · cases h'; exact .inl rfl
      · cases h'
  · cases h; exact .inl rfl

theorem product_fail {n : String} {ms k : ℕ} {fs : List Expr} {st : St} {e : Fail}
    (h : product n ms k fs st = .fail e) : ∃ f ∈ fs, Defect n ms e f := by
  have key : ∀ fs : List Expr, fs.foldr (factorStep n ms k) (.ok ⟨.num 1, false, false, 0, 0, st⟩) = .fail e →
      ∃ f ∈ fs, Defect n ms e f := by
    intro fs
    induction fs with
    | nil => intro h; cases h
    | cons f fs ih =>
      intro h
      rw [List.foldr_cons] at h
      generalize hr : fs.foldr (factorStep n ms k) (.ok ⟨.num 1, false, false, 0, 0, st⟩) = r at h ih
      cases r with
      | fail e' =>
        simp only [factorStep, LRes.fail.injEq] at h
        obtain ⟨g, hg, hd⟩ := ih (by rw [h])
        exact ⟨g, List.mem_cons_of_mem _ hg, hd⟩
      | weighted => cases h
      | ok l =>
        unfold factorStep at h
        dsimp only at h
        split at h
        · exact ⟨_, List.mem_cons_self .., factorX_fail h⟩
        · rcases ite_ok h with ⟨h6, h'⟩ | ⟨h6, h'⟩
          · rcases ite_ok h' with ⟨h7, h8⟩ | ⟨h7, h8⟩
            · cases h8
            · cases h8; exact ⟨f, List.mem_cons_self .., .inr h6⟩
          · cases h'
  apply key
  unfold product at h
  split at h
  · cases h
  · rename_i hf; cases h; exact hf
  · cases h

theorem nl_fail (n : String) (l : List Expr) :
    (l.foldr (nlStep n) (false, .linear, false)).2.1 ≠ .indeterminate ∧
    (l.foldr (nlStep n) (false, .linear, false)).2.1 ≠ .unsolvable ∧
    ((l.foldr (nlStep n) (false, .linear, false)).2.1 = .nested → ∃ f ∈ l, kindOf n f = .nested) := by
  induction l with
  | nil => simp
  | cons a l ih =>
    obtain ⟨i1, i2, i3⟩ := ih
    rw [List.foldr_cons]
    generalize l.foldr (nlStep n) (false, .linear, false) = r at i1 i2 i3
    have up : (∃ f ∈ l, kindOf n f = .nested) → ∃ f ∈ a :: l, kindOf n f = .nested :=
      fun ⟨f, h1, h2⟩ => ⟨f, List.mem_cons_of_mem _ h1, h2⟩
    unfold nlStep
    by_cases h1 : r.1 = true
    · rw [if_pos h1]; exact ⟨i1, i2, fun h => up (i3 h)⟩
    · rw [if_neg h1]
      by_cases hn : kindOf n a = .nested
      · rw [if_pos hn]; exact ⟨by simp, by simp, fun _ => ⟨a, List.mem_cons_self .., hn⟩⟩
      · rw [if_neg hn]
        dsimp only
        by_cases hl : kindOf n a = .legal <;> by_cases hx : isXn n a = true <;> by_cases h3 : r.2.2 = true <;>
          simp only [hl, hx, h3, if_true, if_false, Bool.false_eq_true, reduceCtorEq] <;>
          first
            | exact ⟨i1, i2, fun h => up (i3 h)⟩
            | simp

/-- **C66**, refusal: each reason of failure is a defect of a factor of an addend of the right-hand side: `x(n)` itself,
`x(n + m)` with `m > 0`, a decrement that is too large, `x(n + c)` with `c` not an integer, a malformed term, a power
of `x(n)`, a power with exponent `x(n)`. -/
theorem C66_failure {n : String} {ms : ℕ} {rhs : Expr} {e : Fail} (h : classify n ms rhs = .fail e) :
    ∃ a ∈ addends rhs, ∃ f ∈ factors a, Defect n ms e f := by
  have key : ∀ (as : List Expr) (k : ℕ) (st : St), loopFrom n ms k as st = .fail e →
      ∃ a ∈ as, ∃ f ∈ factors a, Defect n ms e f := by
    intro as
    induction as with
    | nil => intro k st h; cases h
    | cons a as ih =>
      intro k st h
      rw [loopFrom] at h
      cases hs : summand n ms k a st with
      | ok st1 =>
        rw [hs] at h
        obtain ⟨b, h1, h2⟩ := ih _ _ h
        exact ⟨b, List.mem_cons_of_mem _ h1, h2⟩
      | nonLinear => rw [hs] at h; cases h
      | weighted => rw [hs] at h; cases h
      | fail e' =>
        rw [hs] at h
        cases h
        refine ⟨a, List.mem_cons_self .., ?_⟩
        unfold summand at hs
        have hsing : ∀ e, e = a → (∀ l, a ≠ .mul l) → e ∈ factors a := by
          intro e h1 h2
          cases a <;> simp [factors, h1]
          exact absurd rfl (h2 _)
        by_cases hm : ∃ l, a = .mul l
        · obtain ⟨l, rfl⟩ := hm
          obtain ⟨n1, n2, n3⟩ := nl_fail n l
          simp only [findNonLinear] at hs
          split at hs
          · cases hs
          · rename_i hq; cases hs
            obtain ⟨f, f1, f2⟩ := n3 hq
            exact ⟨f, f1, .inl f2⟩
          · rename_i h; exact absurd h n1
          · rename_i h; exact absurd h n2
          · exact product_fail hs
        · have hm' : ∀ l, a ≠ .mul l := fun l hl => hm ⟨l, hl⟩
          have hfn : findNonLinear n a = kindOf n a := by
            cases a <;> first | rfl | exact absurd rfl (hm' _)
          refine ⟨a, hsing a rfl hm', ?_⟩
          rw [hfn] at hs
          split at hs
          · cases hs
          · rename_i hq; cases hs; exact .inl hq
          · rename_i h; cases hs
            cases a with
            | pow b x =>
              simp only [kindOf] at h
              by_cases hb : b = xn n
              · exact ⟨x, by rw [hb]⟩
              · split_ifs at h
            | fn g l => simp only [kindOf] at h; split_ifs at h
            | binder k i lo up body => simp only [kindOf] at h; split_ifs at h
            | _ => simp [kindOf] at h
          · rename_i h; cases hs
            cases a with
            | pow b x =>
              simp only [kindOf] at h
              by_cases hb : x = xn n
              · exact ⟨b, by rw [hb]⟩
              · split_ifs at h
            | fn g l => simp only [kindOf] at h; split_ifs at h
            | binder k i lo up body => simp only [kindOf] at h; split_ifs at h
            | _ => simp [kindOf] at h
          · split at hs
            · exact absurd rfl (hm' _)
            · unfold single at hs
              split at hs
              · exact singleX_fail hs
              · rcases ite_ok hs with ⟨h6, h'⟩ | ⟨h6, h'⟩
                · rcases ite_ok h' with ⟨h7, h8⟩ | ⟨h7, h8⟩
                  · cases h8
                  · cases h8; exact .inr h6
                · cases h'
  exact key _ _ _ h

/-! ### Examples -/

/-- `x(n) = 3 x(n-1) + n x(n-2) - 2 x(n-1) + n^2` is accepted, with variable coefficients, order 2, gcd 1. -/
example : ∃ st, classify "n" 1000 (.add [.mul [.num 3, .fn .x [.add [.sym "n", .num (-1)]]],
      .mul [.sym "n", .fn .x [.add [.sym "n", .num (-2)]]],
      .mul [.num (-2), .fn .x [.add [.sym "n", .num (-1)]]], .pow (.sym "n") (.num 2)]) = .ok st ∧
    (st.ty = .orderZero ∨ st.ty = .linConst ∨ st.ty = .linVar) := by
  apply C66_accepts_linear (by simp [addends])
  have k1 : ∀ q, Known "n" (.num q) := fun q => by simp [Known, isX, kindOf, isWeightedSum]
  have k2 : Known "n" (.sym "n") := by simp [Known, isX, kindOf, isWeightedSum]
  have k3 : Known "n" (.pow (.sym "n") (.num 2)) := by simp [Known, isX, kindOf, isWeightedSum, hasXOf]
  have s1 : IsShift "n" 1000 (.fn .x [.add [.sym "n", .num (-1)]]) := ⟨1, by norm_num, by norm_num, by simp⟩
  have s2 : IsShift "n" 1000 (.fn .x [.add [.sym "n", .num (-2)]]) := ⟨2, by norm_num, by norm_num, by simp⟩
  intro a ha
  simp only [addends, List.mem_cons, List.not_mem_nil, or_false] at ha
  rcases ha with rfl | rfl | rfl | rfl
  · exact ⟨by simp [factors, k1, s1], by simp [factors, isXn, has]⟩
  · exact ⟨by simp [factors, k2, s2], by simp [factors, isXn, has]⟩
  · exact ⟨by simp [factors, k1, s1], by simp [factors, isXn, has]⟩
  · exact ⟨by simp [factors, k3], by simp [factors, isXn]⟩

/-- `x(n) = 2 x(n/2) + n` is accepted as a functional equation and has no repeated divisor. -/
example : ∃ st, classify "n" 1000 (.add [.mul [.num 2, xHalf], .sym "n"]) = .ok st ∧ st.ty = .functional := by
  have hd : divisors "n" (.add [.mul [.num 2, xHalf], .sym "n"]) = [1 / (1/2)] := by
    simp only [divisors, addends, factors, xHalf, List.flatMap_cons, List.flatMap_nil, List.filterMap_cons,
      List.filterMap_nil, xDiv, getDivisor_mk "n" (1/2) half_den (by norm_num)]
    rfl
  have k1 : ∀ q, Known "n" (.num q) := fun q => by simp [Known, isX, kindOf, isWeightedSum]
  have k2 : Known "n" (.sym "n") := by simp [Known, isX, kindOf, isWeightedSum]
  have s1 : IsScale "n" xHalf := ⟨1/2, half_den, by norm_num, rfl⟩
  have : ∃ st, classify "n" 1000 (.add [.mul [.num 2, xHalf], .sym "n"]) = .ok st ∧
      (divisors "n" (.add [.mul [.num 2, xHalf], .sym "n"]) ≠ [] → st.ty = .functional) := by
    apply C66_accepts_functional
    intro a ha
    simp only [addends, List.mem_cons, List.not_mem_nil, or_false] at ha
    rcases ha with rfl | rfl
    · exact ⟨by simp [factors, k1, s1], by simp [factors, isXn, has, xHalf]⟩
    · exact ⟨by simp [factors, k2], by simp [factors, isXn]⟩
  obtain ⟨st, h1, h2⟩ := this
  exact ⟨st, h1, h2 (by rw [hd]; simp)⟩

end Purrs.Classify
