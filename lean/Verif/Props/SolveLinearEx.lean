import Verif.Props.SolveLinear

/-!
# A case meeting the hypotheses of C145, and the failure of `lsolve` that is not noticed (C146)
-/

set_option linter.unusedSectionVars false

namespace Purrs.SolveLin

open Function (update update_of_ne update_self)
open OrderRed (withX eval_x eval_noX SolvesAt IsSolution idxNe)
open OnIC (Shape shape_hasX)
open WeightedAvg (shiftN)
open Verify (xAt xDec subX xOut)
open Polynomial Purrs.Exact

/-! ### `x(n) = x(n-1) + 2 x(n-2) + 2` -/

/-- `x(n-1) + 2 x(n-2)`. -/
def exHomo : Expr := addE (xDec "n" 1) (mulE (.num 2) (xDec "n" 2))

/-- The right-hand side. -/
def exRhs : Expr := addE exHomo (.num 2)

/-- The unknowns `u`, `uu`, … -/
def exU (i : ℕ) : String := String.ofList (List.replicate (i + 2) 'u')

/-- The only equation for the special solution: `-2 u - 2 = 0`. -/
def exEq : Expr := addE (mulE (.num (-2)) (.sym (exU 0))) (.num (-2))

/-- The special solution: `-1`. -/
def exSpecial : Expr := backSub exU [.num (-1)] (ansatz "n" exU 0 (.num 1))

/-- The roots. -/
def exRoots : List (Expr × ℕ) := [(.num 2, 1), (.num (-1), 1)]

/-- The system for the constants. -/
def exSys : List (Expr × Expr) := constantsSystem "n" 0 2 (generalE "n" exU exRoots 0 (addE (.num 0) exSpecial))

/-- `(x(0) + x(1) + 2)/3`. -/
def exV0 : Expr := mulE (.num (1 / 3)) (addE (addE (xAt 0) (xAt 1)) (.num 2))

/-- `(2 x(0) - x(1) + 1)/3`. -/
def exV1 : Expr := mulE (.num (1 / 3)) (addE (addE (mulE (.num 2) (xAt 0)) (mulE (.num (-1)) (xAt 1))) (.num 1))

/-- The constants. -/
def exVals : List Expr := [exV0, exV1]

/-- Simplifications that change nothing, and an `lsolve` that solves these two systems. -/
def exOps : Ops where
  expand := id
  epSimp := id
  simp := id
  auto := fun _ => exHomo
  degree := fun _ => 0
  coeff := fun _ i => if i = 0 then exEq else .num 0
  lsolve := fun eqs us => if eqs = [(exEq, .num 0)] ∧ us = [exU 0] then some [.num (-1)] else if eqs = exSys ∧ us = [exU 0, exU 1] then some exVals else none
  sumPoly := fun e => e
  unknown := fun _ i => exU i
  rw := id
  collect := fun _ e => e
  product := fun _ e => e
  sumOrder1 := fun _ e => e

theorem exU_ne (i : ℕ) : exU i ≠ "n" := by
  intro h
  have h1 := congrArg String.toList h
  rw [exU, String.toList_ofList] at h1
  have := congrArg List.length h1
  simp at this

theorem exU_inj (i j : ℕ) (h : exU i = exU j) : i = j := by
  have h1 := congrArg String.toList h
  rw [exU, exU, String.toList_ofList, String.toList_ofList] at h1
  have := congrArg List.length h1
  simpa using this

/-- The coefficients 1, 2. -/
def exA (i : ℕ) : ℚ := if i = 1 then 1 else 2

theorem keeps_id {I : Interp ℚ} {n : String} {U : String → Prop} {ρ : String → ℚ} {f : ℕ} {B : String → Prop} : Keeps I n U ρ f B id :=
  ⟨fun _ _ _ _ _ _ _ _ => rfl, fun _ h _ => h, fun _ _ h => h, fun _ h => h⟩

theorem keepsX_id {I : Interp ℚ} {n : String} {ρ : String → ℚ} {f : ℕ} {B : String → Prop} {S : ℚ → Prop} : KeepsX I n ρ f B S id :=
  ⟨fun _ _ _ _ _ => rfl, fun _ h => h⟩

theorem eval_xDec (X : ℚ → ℚ) {σ : String → ℚ} {N : ℕ} (hσ : σ "n" = N) {d : ℕ} (hd : d ≤ N) :
    eval (withX ratInterp X) σ (xDec "n" d) = X ((N - d : ℕ) : ℚ) := by
  rw [xDec, eval_x, WeightedAvg.eval_shiftN, hσ, Nat.cast_sub hd]
  push_cast
  rw [sub_eq_add_neg]

theorem ex_homo (X : ℚ → ℚ) {σ : String → ℚ} {N : ℕ} (hσ : σ "n" = N) (hN : 2 ≤ N) :
    eval (withX ratInterp X) σ exHomo = X ((N - 1 : ℕ) : ℚ) + 2 * X ((N - 2 : ℕ) : ℚ) := by
  rw [exHomo, eval_addE, eval_mulE, eval_xDec X hσ (by omega), eval_xDec X hσ hN]
  simp [eval]

theorem ex_recIs (ρ : String → ℚ) : RecIs ratInterp exOps "n" (fun _ => False) ρ 0 2 exRhs (.num 2) exA fun _ => 2 where
  lin := fun X σ N hN hσ => by
    rw [exRhs, eval_addE, ex_homo X hσ.1 (by omega)]
    simp [eval, exA, Finset.sum_range_succ]
  inhomVal := fun X σ N _ _ => by simp [eval]
  shape := by simp [Shape]
  auto := fun X σ N hN hσ => by
    show eval _ _ exHomo = _
    rw [eval_subE, exRhs, eval_addE]
    ring
  out := by
    show xOut "n" (List.range' 1 2) exHomo = true
    have h1 : xOut "n" (List.range' 1 2) (xDec "n" 1) = true := by
      simp only [xDec, xOut, if_pos]
      rw [List.any_eq_true]
      exact ⟨1, by simp, by simp⟩
    have h2 : xOut "n" (List.range' 1 2) (xDec "n" 2) = true := by
      simp only [xDec, xOut, if_pos]
      rw [List.any_eq_true]
      exact ⟨2, by simp, by simp⟩
    exact Verify.xOut_addE h1 (Verify.xOut_mulE (by simp [xOut]) h2)

theorem ex_termIs (ρ : String → ℚ) :
    TermIs ratInterp exOps "n" (fun _ => False) ρ 0 (.num 1, .num 2, .num 0) (1 : ℚ) (C 2 : ℚ[X]) where
  ne := one_ne_zero
  base := fun X σ N _ _ => by simp [eval]
  poly := fun X σ N _ _ => by simp [eval]
  degree := by simp [exOps]
  shapeB := by simp [Shape]
  shapeP := by simp [Shape]

theorem ex_special_val (X : ℚ → ℚ) (σ : String → ℚ) (N : ℕ) (hσ : σ "n" = N) : eval (withX ratInterp X) σ exSpecial = -1 := by
  have := (eval_backSub (J := withX ratInterp X) (B := fun _ => False) (S := fun _ => False) (u := exU) (vals := [.num (-1)])
    (e := ansatz "n" exU 0 (.num 1)) (fun i => by simp) (fun i hi => by
      have : i = 0 := by simpa using hi
      subst this; simp [Shape]) (fun i hi σ t v ht => ht.elim) (fun i j hi hj hij => by simp at hi hj; omega)
    (shape_ansatz "n" exU 0 (by simp [Shape]))).2 σ
  rw [exSpecial, this]
  have hd : Denotes ratInterp "n" (fun t => ∃ i, t = exU i) σ 0 (.num 1) fun _ => (1 : ℚ) := fun X σ N _ _ => by simp [eval]
  obtain ⟨h1, h2⟩ := setUnknowns_spec exU_inj 1 (fun i => eval (withX ratInterp X) σ ([Expr.num (-1)].getD i (.num 0))) σ
  rw [List.length_singleton, eval_ansatz hd exU 0 X (Nat.zero_le N) ⟨by rw [h1 "n" fun i _ => (exU_ne i).symm]; exact hσ, fun t h3 h4 =>
    h1 t fun i _ e => h4 ⟨i, e⟩⟩]
  rw [specialPoly, Finset.sum_range_one, pow_zero, one_mul, eval_C, h2 0 (by omega)]
  simp [eval]

theorem ex_special_shape : Shape (fun _ => False) (fun _ => False) exSpecial :=
  (eval_backSub (J := withX ratInterp fun _ => 0) (B := fun _ => False) (S := fun _ => False) (u := exU) (vals := [.num (-1)])
    (e := ansatz "n" exU 0 (.num 1)) (fun i => by simp) (fun i hi => by
      have : i = 0 := by simpa using hi
      subst this; simp [Shape]) (fun i hi σ t v ht => ht.elim) (fun i j hi hj hij => by simp at hi hj; omega)
    (shape_ansatz "n" exU 0 (by simp [Shape]))).1

theorem num_ne : ¬ Expr.num (-1) = Expr.num 2 := by
  intro h
  injection h with h
  norm_num at h

theorem ex_roots (ρ : String → ℚ) : RootsAre ratInterp exOps "n" (fun _ => False) ρ 0 2 exA exRoots (fun e => if e = .num 2 then 2 else -1) where
  val := by
    intro r hr X σ N _ _
    simp only [exRoots, List.mem_cons, List.not_mem_nil, or_false] at hr
    rcases hr with rfl | rfl
    · simp [eval]
    · rw [if_neg num_ne]
      simp [eval]
  shape := by
    intro r hr
    simp only [exRoots, List.mem_cons, List.not_mem_nil, or_false] at hr
    rcases hr with rfl | rfl <;> simp [Shape]
  are := by
    unfold AreRoots charPoly
    simp only [exRoots, List.map_cons, List.map_nil, List.prod_cons, List.prod_nil, Finset.sum_range_succ, Finset.sum_range_zero, exA]
    rw [if_pos trivial, if_pos trivial, if_neg num_ne, if_neg (by norm_num)]
    norm_num
    rw [show (C (2 : ℚ)) = 2 from rfl]
    ring
  distinct := by
    simp only [exRoots, List.map_cons, List.map_nil]
    rw [if_pos trivial, if_neg num_ne]
    norm_num
  pos := by
    intro r hr
    simp only [exRoots, List.mem_cons, List.not_mem_nil, or_false] at hr
    rcases hr with rfl | rfl <;> simp

theorem ex_system (X : ℚ → ℚ) (σ : String → ℚ)
    (h0 : σ (exU 0) = (X 0 + X 1 + 2) / 3) (h1 : σ (exU 1) = (2 * X 0 - X 1 + 1) / 3) :
    ∀ p ∈ exSys, eval (withX ratInterp X) σ p.1 = eval (withX ratInterp X) σ p.2 := by
  intro p hp
  rw [exSys, constantsSystem, List.mem_reverse, List.mem_map] at hp
  obtain ⟨i, hi, rfl⟩ := hp
  rw [List.mem_range] at hi
  have hsh : Shape (fun _ => False) (fun _ => False) (generalE "n" exU exRoots 0 (addE (.num 0) exSpecial)) :=
    shape_generalE exU exRoots 0 _ (OnIC.shape_addE (by simp [Shape]) ex_special_shape) (ex_roots σ).shape
  have hat := EvalRules.eval_substNum (withX ratInterp X) "n" (shape_idx (n := "n") (by simp) hsh) ((0 + i : ℕ) : ℚ) σ
  have hval : ∀ r ∈ exRoots, Denotes ratInterp "n" (fun t => ∃ i, t = exU i) σ 0 r.1 fun _ => (if r.1 = Expr.num 2 then (2 : ℚ) else -1) := by
    intro r hr
    exact fun X' σ' N hN hσ' => (ex_roots σ).val r hr X' σ' N hN ⟨hσ'.1, fun t h2 h3 => hσ'.2 t h2 fun ⟨i, h4⟩ => h3 ⟨0, i, h4⟩⟩
  have hag : Agrees "n" (fun t => ∃ i, t = exU i) σ (update σ "n" ((0 + i : ℕ) : ℚ)) (0 + i) := agrees_self "n" _ σ (0 + i)
  have hg := eval_generalE (rv := fun e => if e = Expr.num 2 then (2 : ℚ) else -1) exU X (Nat.zero_le (0 + i)) hag exRoots 0 (addE (.num 0) exSpecial) hval
  simp only [eval_subE]
  rw [eval_xAt, hat]
  push_cast at hg ⊢
  rw [hg, eval_addE, ex_special_val X _ i (by simp)]
  simp only [exRoots, List.map_cons, List.map_nil, generalHom, List.range_one, List.foldl_cons, List.foldl_nil]
  rw [if_pos trivial, if_neg num_ne, update_of_ne (exU_ne 0), update_of_ne (exU_ne 1), h0, h1]
  simp only [eval]
  interval_cases i <;> norm_num <;> ring


theorem ex_eq (X : ℚ → ℚ) (σ : String → ℚ) : eval (withX ratInterp X) σ exEq = -2 * σ (exU 0) - 2 := by
  rw [exEq, eval_addE, eval_mulE]
  simp [eval]
  ring

theorem ex_first (ρ : String → ℚ) (S : ℚ → Prop) :
    Solution ratInterp "n" (fun _ => False) (Unknown exOps) ρ S [(exEq, .num 0)] 1 exU [.num (-1)] where
  len := rfl
  each := by
    intro i hi
    have : i = 0 := by omega
    subst this
    exact .inr ⟨by simp [Shape], fun X σ τ _ => by simp [eval]⟩
  sat := by
    intro X σ _ h p hp
    simp only [List.mem_singleton] at hp
    subst hp
    have h0 : σ (exU 0) = -1 := by
      rcases h 0 (by omega) with h | h
      · simp at h
      · simpa [eval] using h
    show eval _ _ exEq = _
    rw [ex_eq, h0]
    simp [eval]

theorem ex_vals0 (X : ℚ → ℚ) (σ : String → ℚ) : eval (withX ratInterp X) σ exV0 = (X 0 + X 1 + 2) / 3 := by
  rw [exV0, eval_mulE, eval_addE, eval_addE, eval_xAt, eval_xAt]
  simp [eval]
  ring

theorem ex_vals1 (X : ℚ → ℚ) (σ : String → ℚ) : eval (withX ratInterp X) σ exV1 = (2 * X 0 - X 1 + 1) / 3 := by
  rw [exV1, eval_mulE, eval_addE, eval_addE, eval_mulE, eval_mulE, eval_xAt, eval_xAt]
  simp [eval]
  ring

theorem ex_second (ρ : String → ℚ) :
    Solution ratInterp "n" (fun _ => False) (Unknown exOps) ρ (ICs 0 2) exSys 2 exU exVals where
  len := rfl
  each := by
    intro i hi
    refine .inr ?_
    have h0 : Shape (fun _ => False) (ICs 0 2) (xAt 0) := by simpa using shape_xAt (f := 0) (k := 2) (fun _ => False) (i := 0) (by omega)
    have h1 : Shape (fun _ => False) (ICs 0 2) (xAt 1) := by simpa using shape_xAt (f := 0) (k := 2) (fun _ => False) (i := 1) (by omega)
    have hn : ∀ q, Shape (fun _ => False) (ICs 0 2) (.num q) := fun q => by simp [Shape]
    interval_cases i
    · show Shape _ _ exV0 ∧ Ignores _ _ exV0
      exact ⟨OnIC.shape_mulE (hn _) (OnIC.shape_addE (OnIC.shape_addE h0 h1) (hn _)), fun X σ τ _ => by rw [ex_vals0, ex_vals0]⟩
    · show Shape _ _ exV1 ∧ Ignores _ _ exV1
      exact ⟨OnIC.shape_mulE (hn _) (OnIC.shape_addE (OnIC.shape_addE (OnIC.shape_mulE (hn _) h0) (OnIC.shape_mulE (hn _) h1)) (hn _)),
        fun X σ τ _ => by rw [ex_vals1, ex_vals1]⟩
  sat := by
    intro X σ _ h
    refine ex_system X σ ?_ ?_
    · rcases h 0 (by omega) with h | h
      · have h' : exV0 = .sym (exU 0) := h
        have e := congrArg (eval (withX ratInterp fun _ => 0) fun _ => 0) h'
        rw [ex_vals0] at e
        norm_num [eval] at e
      · exact h.trans (ex_vals0 X σ)
    · rcases h 1 (by omega) with h | h
      · have h' : exV1 = .sym (exU 1) := h
        have e := congrArg (eval (withX ratInterp fun _ => 0) fun _ => 0) h'
        rw [ex_vals1] at e
        norm_num [eval] at e
      · exact h.trans (ex_vals1 X σ)

theorem ex_opsOk (ρ : String → ℚ) : OpsOk ratInterp exOps "n" (fun _ => False) ρ 0 2 where
  expand := keeps_id
  simp := keeps_id
  epSimp := keeps_id
  rw := keepsX_id
  collect := fun _ => keepsX_id
  notB := by simp
  nB := by simp
  ne := fun _ i => exU_ne i
  inj := fun _ => exU_inj
  lsolve := by
    intro S eqs m j vals hS h hsh _
    have h' : (if eqs = [(exEq, .num 0)] ∧ (List.range m).map exU = [exU 0] then some [.num (-1)]
      else if eqs = exSys ∧ (List.range m).map exU = [exU 0, exU 1] then some exVals else none) = some vals := h
    by_cases h1 : eqs = [(exEq, .num 0)] ∧ (List.range m).map exU = [exU 0]
    · rw [if_pos h1, Option.some.injEq] at h'
      have hm : m = 1 := by simpa using congrArg List.length h1.2
      subst hm h'
      rw [h1.1]
      exact ex_first ρ S
    · rw [if_neg h1] at h'
      by_cases h2 : eqs = exSys ∧ (List.range m).map exU = [exU 0, exU 1]
      · rw [if_pos h2, Option.some.injEq] at h'
        have hm : m = 2 := by simpa using congrArg List.length h2.2
        subst hm h'
        rw [h2.1] at hsh ⊢
        rcases hS with rfl | rfl
        · exfalso
          have hmem : (subE (xAt (0 + 0)) (substitute (.sym "n") (.num ((0 + 0 : ℕ) : ℚ)) (generalE "n" exU exRoots 0 (addE (.num 0) exSpecial))),
              Expr.num 0) ∈ exSys := by
            rw [exSys, constantsSystem, List.mem_reverse, List.mem_map]
            exact ⟨0, by simp, rfl⟩
          have hx := shape_hasX (hsh _ hmem).1
          have e := eval_noX ratInterp (fun _ => 0) (fun _ => 1) _ hx fun _ => 0
          have hg : Shape (fun _ => False) (fun _ => False)
              (substitute (.sym "n") (.num ((0 + 0 : ℕ) : ℚ)) (generalE "n" exU exRoots 0 (addE (.num 0) exSpecial))) :=
            shape_numN (by simp) _ (shape_generalE exU exRoots 0 _ (OnIC.shape_addE (by simp [Shape]) ex_special_shape) (ex_roots ρ).shape)
          simp only at e
          rw [eval_subE, eval_subE, eval_xAt, eval_xAt, eval_noX ratInterp (fun _ => 0) (fun _ => 1) _ (shape_hasX hg)] at e
          linarith
        · exact ex_second ρ
      · rw [if_neg h2] at h'
        cases h'

theorem ex_decomposition : decomposition exOps "n" (.num 2) = [(.num 1, .num 2, .num 0)] := by
  show expPolyDecomposition "n" (.num 2) = _
  have h : isolatePolynomialPart "n" (.num 2) = (.num 2, .num 0) := by
    simp [isolatePolynomialPart, isPolynomial, isScalarRep]
  simp only [expPolyDecomposition, epSummand, epBase, epFactor, bumpLast, h, List.nil_append]
  simp [addE]

theorem ex_not_fast : ¬ (Expr.num 1 = Expr.num 1 ∧ exHomo = xDec "n" 1) := by
  rintro ⟨-, h⟩
  have e := congrArg (eval (withX ratInterp fun _ => 1) (update (fun _ => 0) "n" ((2 : ℕ) : ℚ))) h
  rw [ex_homo _ (N := 2) (by simp) le_rfl, eval_xDec _ (N := 2) (by simp) (by omega)] at e
  norm_num at e

theorem ex_multOf : multOf exOps exRoots (.num 1) = 0 := by
  simp [multOf, exRoots, exOps]
  norm_num

theorem ex_match : ∀ t ∈ decomposition exOps "n" (.num 2), ∀ r ∈ exRoots, exOps.rw r.1 = t.1 ↔ (if r.1 = Expr.num 2 then (2 : ℚ) else -1) = 1 := by
  intro t ht r hr
  rw [ex_decomposition, List.mem_singleton] at ht
  subst ht
  simp only [exRoots, List.mem_cons, List.not_mem_nil, or_false] at hr
  rcases hr with rfl | rfl
  · simp [exOps]
  · rw [if_neg num_ne]
    simp [exOps]

theorem ex_termSolved (ρ : String → ℚ) :
    TermSolved ratInterp exOps "n" (fun _ => False) ρ 0 2 exHomo 0 (.num 1, .num 2, .num 0) (C 2 : ℚ[X]) where
  sum := fun h1 h2 => absurd ⟨h1, h2⟩ ex_not_fast
  recognised := by
    intro _ j
    refine ⟨?_, ?_, 0, ?_, fun i hi X σ => ?_⟩
    · intro i
      show Shape _ _ (if i = 0 then exEq else .num 0)
      split
      · exact OnIC.shape_addE (OnIC.shape_mulE (by simp [Shape]) (by simp [Shape])) (by simp [Shape])
      · simp [Shape]
    · intro i X σ τ h
      show eval _ _ (if i = 0 then exEq else .num 0) = eval _ _ (if i = 0 then exEq else .num 0)
      split
      · rw [ex_eq, ex_eq, h _ (exU_ne 0)]
      · simp [eval]
    · intro X σ N hN hσ
      have := eval_diffE (ex_opsOk ρ) (ex_recIs ρ) (ex_termIs ρ) exU exU_ne 0 X hN hσ
      rw [Finset.sum_range_one, pow_zero, mul_one]
      refine Eq.trans this ?_
      show _ = eval _ _ exEq
      rw [ex_eq]
      unfold specialDiff specialPoly
      simp [Finset.sum_range_succ, exA]
    · show eval _ _ (if i = 0 then exEq else .num 0) = 0
      rw [if_neg (by omega)]
      simp [eval]
  solved := by
    intro _ j
    have : ∀ us, us = [exU 0] → (exOps.lsolve [(exEq, .num 0)] us).isSome = true := by
      intro us hus
      show (if _ then _ else _ : Option (List Expr)).isSome = true
      rw [if_pos ⟨rfl, hus⟩]
      rfl
    exact this _ rfl

/-- What the solver returns for `x(n) = x(n-1) + 2 x(n-2) + 2`. -/
theorem ex_answer_eq : solveLinear exOps "n" exRhs (.num 2) 0 2 true (.num 1) (some exRoots) none
    = some (finish exOps 0 2 (backSub exU exVals (generalE "n" exU exRoots 0 (addE (.num 0) exSpecial)))) := by
  have hs : specialSum exOps "n" exHomo 2 exRoots 0 [(.num 1, .num 2, .num 0)] (.num 0) = some (addE (.num 0) exSpecial) := by
    rw [specialSum, ex_multOf]
    have : special exOps "n" (exOps.unknown (0 + 1)) exHomo 2 (.num 2) (.num 1) 0 = some exSpecial := by
      rw [special, if_neg ex_not_fast]
      rfl
    rw [this]
    rfl
  have hc : constants exOps "n" 0 exRoots (addE (.num 0) exSpecial)
      = some (backSub exU exVals (generalE "n" exU exRoots 0 (addE (.num 0) exSpecial))) := by
    rw [constants]
    have : exOps.lsolve exSys ((List.range 2).map exU) = some exVals := by
      show (if _ then _ else _) = _
      rw [if_neg (by rintro ⟨h, -⟩; exact absurd (congrArg List.length h) (by simp [exSys, constantsSystem]))]
      exact if_pos ⟨rfl, rfl⟩
    show (exOps.lsolve exSys ((List.range 2).map exU)).map _ = _
    rw [this]
    rfl
  rw [solveLinear, if_neg (by norm_num), if_pos rfl, Option.bind_some, solveConst, ex_decomposition]
  rw [if_neg (by simp)]
  rw [newMethod]
  show Option.map _ (((specialSum exOps "n" exHomo 2 exRoots 0 [(.num 1, .num 2, .num 0)] (.num 0))).bind _) = _
  rw [hs, Option.bind_some, if_neg (by norm_num)]
  show Option.map _ (Option.map _ (constants exOps "n" 0 exRoots (addE (.num 0) exSpecial))) = _
  rw [hc]
  rfl

/-- The solver returns an expression for `x(n) = x(n-1) + 2 x(n-2) + 2`. -/
theorem ex_answer : ∃ e, solveLinear exOps "n" exRhs (.num 2) 0 2 true (.num 1) (some exRoots) none = some e := ⟨_, ex_answer_eq⟩

/-- The hypotheses of `C145_constant_coefficients` are met: the answer for `x(n) = x(n-1) + 2 x(n-2) + 2` is the solution. -/
example (ρ : String → ℚ) : ∃ e, solveLinear exOps "n" exRhs (.num 2) 0 2 true (.num 1) (some exRoots) none = some e ∧
    IsSolution ratInterp "n" exRhs ρ e 0 2 := by
  obtain ⟨e, he⟩ := ex_answer
  refine ⟨e, he, (C145_constant_coefficients (ex_opsOk ρ) (by norm_num) (a := exA) (by simp [exA]) (ex_recIs ρ) (by norm_num) (by simp [Shape])
    (ex_roots ρ) (b := fun _ => 1) (P := fun _ => C 2) ?_ ?_ ?_ ?_ he).2⟩
  · intro t ht
    rw [ex_decomposition, List.mem_singleton] at ht
    subst ht
    exact ex_termIs ρ
  · exact ex_match
  · intro t ht
    rw [ex_decomposition, List.mem_singleton] at ht
    subst ht
    show TermSolved _ _ _ _ _ _ _ exHomo (multOf exOps exRoots (.num 1)) _ _
    rw [ex_multOf]
    exact ex_termSolved ρ
  · intro t ht
    rw [ex_decomposition, List.mem_singleton] at ht
    subst ht
    rfl


/-! ### `x(n) = (n + 1)/n x(n-1) + n + 1` -/

/-- The coefficient. -/
def varA : Expr := mulE (addE (.sym "n") (.num 1)) (powE (.sym "n") (.num (-1)))

/-- The inhomogeneous term. -/
def varP : Expr := addE (.sym "n") (.num 1)

/-- The right-hand side. -/
def varRhs : Expr := addE (mulE varA (xDec "n" 1)) varP

/-- The product is `n + 1`, the sum is `n`. -/
def varOps : Ops where
  expand := id
  epSimp := id
  simp := id
  auto := id
  degree := fun _ => 0
  coeff := fun e _ => e
  lsolve := fun _ _ => none
  sumPoly := id
  unknown := fun _ i => exU i
  rw := id
  collect := fun _ e => e
  product := fun _ _ => varP
  sumOrder1 := fun _ _ => .sym "n"

theorem none_opsOk (O : Ops) (h1 : O.expand = id) (h2 : O.simp = id) (h3 : O.epSimp = id) (h4 : O.rw = id) (h5 : O.collect = fun _ => id)
    (h6 : O.unknown = fun _ => exU) (h7 : O.lsolve = fun _ _ => none) (ρ : String → ℚ) (f k : ℕ) :
    OpsOk ratInterp O "n" (fun _ => False) ρ f k where
  expand := h1 ▸ keeps_id
  simp := h2 ▸ keeps_id
  epSimp := h3 ▸ keeps_id
  rw := h4 ▸ keepsX_id
  collect := fun c => by rw [h5]; exact keepsX_id
  notB := by simp
  nB := by simp
  ne := fun _ i => by rw [h6]; exact exU_ne i
  inj := fun j i i' h => by rw [h6] at h; exact exU_inj _ _ h
  lsolve := fun S eqs m j vals _ h => by rw [h7] at h; cases h

theorem var_shape : Shape (fun _ => False) (fun _ => False) varP :=
  OnIC.shape_addE (a := .sym "n") (b := .num 1) (by simp [Shape]) (by simp [Shape])

theorem pw_neg_one (J : Interp ℚ) (a : ℚ) : J.pw a (Rat.cast (-1 : ℚ)) = a⁻¹ := by
  have := J.pw_int a (-1)
  rw [zpow_neg_one] at this
  rw [← this]
  norm_num

theorem var_p (J : Interp ℚ) (σ : String → ℚ) : eval J σ varP = σ "n" + 1 := by
  rw [varP, eval_addE]; simp [eval]

/-- The hypotheses of `C145_variable_coefficient` are met: the answer is `(n + 1) (n + x(0))`. -/
example (ρ : String → ℚ) : ∃ e, solveLinear varOps "n" varRhs varP 0 1 false varA none none = some e ∧
    IsSolution ratInterp "n" varRhs ρ e 0 1 := by
  have hprod : ∀ N : ℕ, ∏ i ∈ Finset.Icc (0 + 1) N, (((i : ℚ) + 1) * (i : ℚ) ^ (-1 : ℤ)) = (N : ℚ) + 1 := by
    intro N
    induction N with
    | zero => simp
    | succ N ih =>
      rw [Finset.prod_Icc_succ_top (by omega), ih]
      have : ((N : ℚ) + 1) ≠ 0 := by positivity
      push_cast
      rw [zpow_neg_one]
      field_simp
  refine ⟨_, rfl, (C145_variable_coefficient (none_opsOk varOps rfl rfl rfl rfl rfl rfl rfl ρ 0 1)
    (alpha := fun m => ((m : ℚ) + 1) * (m : ℚ) ^ (-1 : ℤ)) (p := fun m => (m : ℚ) + 1) ⟨keepsX_id, ?_, ?_, ?_, ?_⟩ ?_ ?_ ?_
      (old := none) (roots := none) (a1 := varA) (inhom := varP) rfl).2⟩
  · exact var_shape
  · intro X σ N _ hσ
    show eval _ _ varP = _
    rw [var_p, hσ.1]
    exact (hprod N).symm
  · simp [varOps, Shape]
  · intro s hs X σ N hN hσ
    have hs1 : ∀ i ∈ Finset.Icc (0 + 1) N, s i = 1 := by
      intro i _
      have := hs (fun _ => 0) (update ρ "n" (i : ℚ)) i (by omega) (agrees_self "n" _ ρ i)
      rw [← this]
      show eval _ _ (WeightedAvg.divE varP varP) = 1
      rw [WeightedAvg.divE, eval_mulE, eval_powE, var_p, update_self]
      simp only [eval]
      rw [pw_neg_one, mul_inv_cancel₀ (by positivity)]
    show eval _ _ (.sym "n") = ∑ i ∈ Finset.Icc (0 + 1) N, s i
    rw [Finset.sum_congr rfl hs1]
    simp [eval, hσ.1]
  · intro m hm
    have : (m : ℚ) ≠ 0 := by exact_mod_cast hm.ne'
    have h2 : ((m : ℚ) + 1) ≠ 0 := by positivity
    positivity
  · intro X σ N _ hσ
    rw [var_p, hσ.1]
  · intro X N hN
    rw [varRhs, eval_addE, eval_mulE, var_p, eval_xDec X (N := N) (by simp) (by omega), varA, eval_mulE, eval_addE, eval_powE]
    simp only [eval, update_self]
    rw [pw_neg_one]
    simp

/-- The hypotheses of `C145_order_zero` are met: `x(n) = n + 1`. -/
example (ρ : String → ℚ) : IsSolution ratInterp "n" varP ρ varP 0 0 :=
  (C145_order_zero (O := varOps) (B := fun _ => False) (none_opsOk varOps rfl rfl rfl rfl rfl rfl rfl ρ 0 0) (inhom := varP)
    (p := fun N => (N : ℚ) + 1) (fun X σ N _ hσ => by rw [var_p, hσ.1]) var_shape
    (fun X N _ => by rw [var_p]; simp) (cc := true) (a1 := .num 0) (roots := none) (old := none) rfl).2

/-! ### C146: a failure of `lsolve` -/

/-- `2 x(n-1)`. -/
def unHomo : Expr := mulE (.num 2) (xDec "n" 1)

/-- `lsolve` finds nothing. -/
def unOps : Ops := { varOps with auto := fun _ => unHomo, coeff := fun _ i => if i = 0 then addE (mulE (.num (-1)) (.sym (exU 0))) (.num (-1)) else .num 0 }

/-- The answer for `x(n) = 2 x(n-1) + 1`: `(x(0) - u) 2^n + u`. -/
def unAnswer : Expr := finish unOps 0 1 (order1 "n" 0 (.num 2) (addE (.num 0) (ansatz "n" exU 0 (.num 1))))

theorem un_decomposition : decomposition unOps "n" (.num 1) = [(.num 1, .num 1, .num 0)] := by
  show expPolyDecomposition "n" (.num 1) = _
  have h : isolatePolynomialPart "n" (.num 1) = (.num 1, .num 0) := by
    simp [isolatePolynomialPart, isPolynomial, isScalarRep]
  simp only [expPolyDecomposition, epSummand, epBase, epFactor, bumpLast, h, List.nil_append]
  simp [addE]

theorem un_not_fast : ¬ (Expr.num 1 = Expr.num 1 ∧ unHomo = xDec "n" 1) := by
  rintro ⟨-, h⟩
  have e := congrArg (eval (withX ratInterp fun _ => 1) (update (fun _ => 0) "n" ((2 : ℕ) : ℚ))) h
  rw [unHomo, eval_mulE, eval_xDec _ (N := 2) (by simp) (by omega)] at e
  norm_num [eval] at e

theorem un_answer : solveLinear unOps "n" (addE unHomo (.num 1)) (.num 1) 0 1 true (.num 2) (some [(.num 2, 1)]) none = some unAnswer := by
  have hm : multOf unOps [(.num 2, 1)] (.num 1) = 0 := by
    simp [multOf, unOps, varOps]
  have hs : special unOps "n" (unOps.unknown (0 + 1)) unHomo 1 (.num 1) (.num 1) 0 = some (ansatz "n" exU 0 (.num 1)) := by
    rw [special, if_neg un_not_fast]
    rfl
  rw [solveLinear, if_neg (by norm_num), if_pos rfl, Option.bind_some, solveConst, un_decomposition, if_neg (by simp), newMethod]
  show Option.map _ (((specialSum unOps "n" unHomo 1 [(.num 2, 1)] 0 [(.num 1, .num 1, .num 0)] (.num 0))).bind _) = _
  rw [specialSum, hm, hs]
  rfl

theorem un_val (X : ℚ → ℚ) (σ : String → ℚ) (N : ℕ) (hσ : σ "n" = N) :
    eval (withX ratInterp X) σ unAnswer = (X 0 - σ (exU 0)) * 2 ^ N + σ (exU 0) := by
  have hd : ∀ τ, Denotes ratInterp "n" (fun _ => False) τ 0 (.num 1) fun _ => (1 : ℚ) := fun τ X σ N _ _ => by simp [eval]
  have ha : ∀ (τ : String → ℚ) (M : ℕ), τ "n" = M → eval (withX ratInterp X) τ (addE (.num 0) (ansatz "n" exU 0 (.num 1))) = τ (exU 0) := by
    intro τ M hτ
    rw [eval_addE, eval_ansatz (hd τ) exU 0 X (Nat.zero_le M) ⟨hτ, fun _ _ _ => rfl⟩, specialPoly, Finset.sum_range_one, pow_zero, one_mul, eval_C]
    simp [eval]
  have hsh : Shape (fun _ => False) (fun _ => False) (addE (.num 0) (ansatz "n" exU 0 (.num 1))) :=
    OnIC.shape_addE (by simp [Shape]) (shape_ansatz "n" exU 0 (by simp [Shape]))
  have hfin : ∀ e, finish unOps 0 1 e = e := fun e => by cases e <;> rfl
  rw [unAnswer, hfin, order1, eval_addE, eval_mulE, eval_subE, eval_xAt, ha σ N hσ,
    EvalRules.eval_substNum _ "n" (shape_idx (by simp) hsh), ha _ 0 (by simp), update_of_ne (exU_ne 0), eval_powE, eval_subE]
  simp only [eval, hσ, Nat.cast_zero, Rat.cast_zero, sub_zero]
  rw [pw_nat]
  norm_num

theorem un_recIs (ρ : String → ℚ) : RecIs ratInterp unOps "n" (fun _ => False) ρ 0 1 (addE unHomo (.num 1)) (.num 1) (fun _ => 2) fun _ => 1 where
  lin := fun X σ N hN hσ => by
    rw [eval_addE, unHomo, eval_mulE, eval_xDec X hσ.1 (by omega)]
    simp [eval]
  inhomVal := fun X σ N _ _ => by simp [eval]
  shape := by simp [Shape]
  auto := fun X σ N hN hσ => by
    show eval _ _ unHomo = _
    rw [eval_subE, eval_addE]
    ring
  out := by
    show xOut "n" (List.range' 1 1) unHomo = true
    refine Verify.xOut_mulE (by simp [xOut]) ?_
    simp only [xDec, xOut, if_pos]
    rw [List.any_eq_true]
    exact ⟨1, by simp, by simp⟩

theorem un_termIs (ρ : String → ℚ) :
    TermIs ratInterp unOps "n" (fun _ => False) ρ 0 (.num 1, .num 1, .num 0) (1 : ℚ) (C 1 : ℚ[X]) where
  ne := one_ne_zero
  base := fun X σ N _ _ => by simp [eval]
  poly := fun X σ N _ _ => by simp [eval]
  degree := by simp [unOps, varOps]
  shapeB := by simp [Shape]
  shapeP := by simp [Shape]

theorem un_opsOk (ρ : String → ℚ) (f k : ℕ) : OpsOk ratInterp unOps "n" (fun _ => False) ρ f k :=
  none_opsOk unOps rfl rfl rfl rfl rfl rfl rfl ρ f k

theorem un_recognised (ρ : String → ℚ) (j : ℕ) :
    Recognised ratInterp unOps "n" (fun _ => False) ρ 1 (diffE unOps "n" unHomo 1 (.num 1) (.num 1) (ansatz "n" (unOps.unknown j) 0 (.num 1))) := by
  have he : ∀ (X : ℚ → ℚ) (σ : String → ℚ),
      eval (withX ratInterp X) σ (addE (mulE (.num (-1)) (.sym (exU 0))) (.num (-1))) = - σ (exU 0) - 1 := by
    intro X σ
    rw [eval_addE, eval_mulE]
    simp [eval]
    ring
  refine ⟨?_, ?_, 0, ?_, fun i hi X σ => ?_⟩
  · intro i
    show Shape _ _ (if i = 0 then addE (mulE (.num (-1)) (.sym (exU 0))) (.num (-1)) else .num 0)
    split
    · exact OnIC.shape_addE (OnIC.shape_mulE (by simp [Shape]) (by simp [Shape])) (by simp [Shape])
    · simp [Shape]
  · intro i X σ τ h
    show eval _ _ (if i = 0 then addE (mulE (.num (-1)) (.sym (exU 0))) (.num (-1)) else .num 0)
      = eval _ _ (if i = 0 then addE (mulE (.num (-1)) (.sym (exU 0))) (.num (-1)) else .num 0)
    split
    · rw [he, he, h _ (exU_ne 0)]
    · simp [eval]
  · intro X σ N hN hσ
    have := eval_diffE (un_opsOk ρ 0 1) (un_recIs ρ) (un_termIs ρ) exU exU_ne 0 X (by simpa using hN) hσ
    rw [Finset.sum_range_one, pow_zero, mul_one]
    refine Eq.trans this ?_
    show _ = eval _ _ (addE (mulE (.num (-1)) (.sym (exU 0))) (.num (-1)))
    rw [he]
    unfold specialDiff specialPoly
    simp
    ring
  · show eval _ _ (if i = 0 then addE (mulE (.num (-1)) (.sym (exU 0))) (.num (-1)) else .num 0) = 0
    rw [if_neg (by omega)]
    simp [eval]

/-- **C146** (counterexample).  The system for the coefficients of the special solution of `x(n) = 2 x(n-1) + 1` is recognised, `lsolve` finds nothing,
the solver answers nevertheless; the answer contains the undetermined coefficient and is not the solution, although all the operations called work. -/
theorem C146_unsolved_refuted : ∃ (O : Ops) (rhs inhom e : Expr), (∀ ρ, OpsOk ratInterp O "n" (fun _ => False) ρ 0 1) ∧
    (∀ ρ, RecIs ratInterp O "n" (fun _ => False) ρ 0 1 rhs inhom (fun _ => 2) fun _ => 1) ∧
    (∀ ρ, ∀ t ∈ decomposition O "n" inhom, t.2.2 = .num 0 ∧ TermIs ratInterp O "n" (fun _ => False) ρ 0 t (1 : ℚ) (C 1 : ℚ[X]) ∧
      ∀ j, Recognised ratInterp O "n" (fun _ => False) ρ 1
        (diffE O "n" (O.auto (subE rhs inhom)) 1 t.2.1 t.1 (ansatz "n" (O.unknown j) (O.degree t.2.1) t.1))) ∧
    solveLinear O "n" rhs inhom 0 1 true (.num 2) (some [(.num 2, 1)]) none = some e ∧
    (∃ (ρ : String → ℚ) (v : ℚ), eval (withX ratInterp fun _ => 0) (update (update ρ "n" 1) (O.unknown 1 0) v) e
      ≠ eval (withX ratInterp fun _ => 0) (update ρ "n" 1) e) ∧
    ¬ IsSolution ratInterp "n" rhs (fun _ => 0) e 0 1 := by
  refine ⟨unOps, addE unHomo (.num 1), .num 1, unAnswer, fun ρ => un_opsOk ρ 0 1, un_recIs, ?_, un_answer, ?_, ?_⟩
  · intro ρ t ht
    rw [un_decomposition, List.mem_singleton] at ht
    subst ht
    exact ⟨rfl, un_termIs ρ, un_recognised ρ⟩
  · refine ⟨fun _ => 0, 1, ?_⟩
    show eval _ (update _ (exU 0) 1) unAnswer ≠ _
    rw [un_val _ _ 1 (by rw [update_of_ne (exU_ne 0).symm]; simp), un_val _ _ 1 (by simp)]
    simp [update_of_ne (exU_ne 0)]
    norm_num
  · intro h
    have := h (Function.extend Nat.cast (fun m : ℕ => (2 : ℚ) ^ m - 1) 0) (by
      intro N hN
      rw [Nat.cast_injective.extend_apply, (un_recIs fun _ => 0).lin _ _ N hN (agrees_self "n" _ _ N)]
      rw [Finset.sum_range_one, Nat.cast_injective.extend_apply]
      obtain ⟨M, rfl⟩ : ∃ M, N = M + 1 := ⟨N - 1, by omega⟩
      simp [pow_succ]
      ring) 1 (by omega)
    rw [un_val _ _ 1 (by simp), Nat.cast_injective.extend_apply] at this
    rw [show (0 : ℚ) = ((0 : ℕ) : ℚ) by norm_num, Nat.cast_injective.extend_apply] at this
    simp [update_of_ne (exU_ne 0)] at this
    norm_num at this

/-- **C146** (what is checked).  When `lsolve` finds nothing there is no answer if the base of the term is a root of the characteristic equation, and if
the system is the one for the constants of the general solution.  Missing: a base that is not a root. -/
theorem C146_checked_partial (O : Ops) (n : String) (f k : ℕ) :
    (∀ (u : ℕ → String) (homo poly base : Expr) (mult : ℕ), mult ≠ 0 → ¬ (base = .num 1 ∧ homo = xDec n 1) →
      O.lsolve (specialSystem O (O.degree poly + mult) (diffE O n homo k poly base (ansatz n u (O.degree poly + mult) base)))
        ((List.range (O.degree poly + mult + 1)).map u) = none → special O n u homo k poly base mult = none) ∧
    ∀ (roots : List (Expr × ℕ)) (sol : Expr), O.lsolve (constantsSystem n f (roots.map Prod.snd).sum (generalE n (O.unknown 0) roots 0 sol))
        ((List.range (roots.map Prod.snd).sum).map (O.unknown 0)) = none → constants O n f roots sol = none := by
  constructor
  · intro u homo poly base mult hm hf h
    unfold special
    rw [if_neg hf]
    dsimp only
    rw [h]
    exact if_neg hm
  · intro roots sol h
    unfold constants
    dsimp only
    rw [h]
    rfl

end Purrs.SolveLin
