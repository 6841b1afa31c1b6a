import Verif.Props.CapstoneDiv

/-!
# A concrete history for C152: `x(n) = 2 x(n/2) + 3 n`
-/

set_option linter.unusedSectionVars false

namespace Purrs.CapstoneDiv

open Function (update update_of_ne update_self)
open OrderRed (withX eval_noX)
open Classify (St classify)
open Bounds
open CapstoneBounds (Sense)
open RecState

/-- `x(n) = 2 x(n/2) + 3 n`. -/
def exRhs : Expr := .add [.mul [.num 2, Classify.xHalf], .mul [.num 3, .sym "n"]]

/-- What the classification finds. -/
def exSt : St := ⟨.functional, .mul [.sym "n", .num 3], 0, [], 0, [(1 / (1/2), .num 2)]⟩

theorem ex_classify : classify "n" 1000 exRhs = .ok exSt := by
  have hp : hasParameters "n" (.mul [.num (1/2), .sym "n"]) = false := by simp [hasParameters]
  have hh : has (.sym "n") (.mul [.num (1/2), .sym "n"]) = true := by simp [has]
  have hx : hasXOf (.sym "n") (.mul [.num (1/2), .sym "n"]) = false := by simp [hasXOf]
  have hn : (Expr.mul [.num (1/2), .sym "n"]) ≠ .sym "n" := by simp
  have hd := Classify.getDivisor_mk "n" (1/2) Classify.half_den (by norm_num)
  have h1 : Classify.summand "n" 1000 0 (.mul [.num 2, Classify.xHalf]) Classify.initSt = .ok ⟨.functional, .num 0, 0, [], 0, [(1 / (1/2), .num 2)]⟩ := by
    simp only [Classify.summand, Classify.xHalf, Classify.findNonLinear, Classify.kindOf, List.any_cons, List.any_nil, hx, Bool.or_false, Bool.false_eq_true,
      if_false, Classify.nlStep, List.foldr_cons, List.foldr_nil, Classify.isXn, hh, if_true, reduceCtorEq, Classify.product, Classify.factorStep, Classify.factorX,
      hn, hp, Bool.not_true, Classify.isAdd2, Classify.isMul2, hd, Classify.isWeightedSum]
    simp [St.fresh, St.linear, Classify.mapInsert, Classify.finishProduct, Classify.initSt, has, mulE]
  have h2 : Classify.summand "n" 1000 1 (.mul [.num 3, .sym "n"]) ⟨.functional, .num 0, 0, [], 0, [(1 / (1/2), .num 2)]⟩ = .ok exSt := by
    simp [Classify.summand, Classify.findNonLinear, Classify.kindOf, Classify.nlStep, Classify.product, Classify.factorStep, Classify.isXn,
      Classify.isWeightedSum, Classify.finishProduct, Classify.addInhom, addE, mulE, has, exSt]
  simp only [exRhs, Classify.classify, addends, Classify.loopFrom, h1, h2]

theorem ex_division : IsDivision "n" 1000 exRhs exSt 2 2 where
  ok := ex_classify
  ty := rfl
  homog := by simp [exSt]
  nodup := by
    have hd := Classify.getDivisor_mk "n" (1/2) Classify.half_den (by norm_num)
    have h2 : Classify.xDiv "n" (.num 2) = none := by simp [Classify.xDiv]
    have h3 : Classify.xDiv "n" (.num 3) = none := by simp [Classify.xDiv]
    have h4 : Classify.xDiv "n" (.sym "n") = none := by simp [Classify.xDiv]
    simp only [Classify.divisors, exRhs, addends, factors, List.flatMap_cons, List.flatMap_nil, List.filterMap_cons, List.filterMap_nil, h2, h3, h4]
    split <;> simp
  pos := by norm_num
  two := le_rfl
  plain := by simp [exSt, hasParameters]

open Classical in
/-- A comparison that decides about expressions without `x`. -/
noncomputable def exCmp (x y : Expr) : Cmp := if hasX x = true ∨ hasX y = true then .unknown else idealCmp 0 (fun _ => 0) x y

theorem exCmp_noX {x y : Expr} (hx : hasX x = false) (hy : hasX y = false) : exCmp x y = idealCmp 0 (fun _ => 0) x y := by
  unfold exCmp; rw [if_neg (by simp [hx, hy])]

theorem hasX_pow (p k : ℚ) : hasX (powE (.num p) (.num k)) = false := WeightedAvg.hasX_powE (by simp [hasX]) (by simp [hasX])

theorem exCmp_ok (ξ : ℝ → ℝ) : CmpOk ξ (fun _ => 0) "n" exCmp := by
  obtain ⟨h1, h2⟩ := idealCmp_ok 0 (fun _ => 0) "n"
  refine ⟨fun a p k h => ?_, fun x y hx hy => ?_⟩
  · rw [exCmp_noX (by simp [hasX]) (hasX_pow _ _)]
    exact h1 a p k h
  · by_cases c : hasX x = true ∨ hasX y = true
    · unfold exCmp; rw [if_pos c]; trivial
    · push Not at c
      simp only [Bool.not_eq_true] at c
      rw [exCmp_noX c.1 c.2]
      have e1 : eval (realInterp ξ) (fun _ => 0) x = eval (realInterp 0) (fun _ => 0) x := by
        rw [← NonLinear.withX_real ξ, eval_noX (realInterp 0) ξ 0 x c.1, NonLinear.withX_real 0]
      have e2 : eval (realInterp ξ) (fun _ => 0) y = eval (realInterp 0) (fun _ => 0) y := by
        rw [← NonLinear.withX_real ξ, eval_noX (realInterp 0) ξ 0 y c.2, NonLinear.withX_real 0]
      rw [e1, e2]
      exact h2 x y hx hy

/-- The decomposition of the inhomogeneous term. -/
def exDs : List (Expr × Expr × Expr) := [(.num 1, exSt.inhom, .num 0)]

/-- What the classification records. -/
def exInfo : Info := ⟨.functional, 0, 1, 2⟩

/-- The bound computed. -/
noncomputable def exBound (k : BoundKind) : Expr := (approximate "n" exCmp noSums (ofKind k) (.num 2) (2 : ℕ) exSt.inhom exDs 0).getD (.num 0)

/-- The engine that knows this equation. -/
noncomputable def exEngine : Engine where
  classify := fun e => (.success, exInfo, e)
  solve := fun _ _ _ => .error .tooComplex
  bound := fun _ _ k => .ok (exBound k)
  onIC := fun _ info m x => (OnIC.evaluate OnIC.exOps "n" info ⟨0, .num 0, .num 0⟩ (.num 0) (.num 0) 0 (.num 0) m x).getD (.num 0)
  rename := id

theorem ex_polynomial : Polynomial "n" exCmp 2 2 exSt.inhom := by
  intro x hx
  simp only [exSt, addends, List.mem_singleton] at hx
  subst hx
  refine ⟨3, 1, .nc 3, ⟨?_, ?_⟩, Or.inr (Or.inl ?_)⟩
  · rw [exCmp_noX (by simp [hasX]) (by simp [hasX])]
    exact idealCmp_greater (by simp only [ev_num]; norm_num)
  · rw [exCmp_noX (by simp [hasX]) (hasX_pow _ _)]
    unfold idealCmp; split_ifs <;> simp
  · norm_num

theorem ex_some (k : BoundKind) : approximate "n" exCmp noSums (ofKind k) (.num 2) (2 : ℕ) exSt.inhom exDs 0 = some (exBound k) := by
  obtain ⟨w, hw⟩ := (C152_polynomial (S := noSums) (ρ := fun _ => 0) ex_division exCmp_ok (Nat.zero_le 1) ex_polynomial).2.2 (ofKind k)
  unfold exBound
  rw [show exDs = [(.num 1, exSt.inhom, .num 0)] from rfl, hw]
  rfl

theorem ex_wired : Wired exEngine OnIC.exOps "n" exCmp noSums exRhs exSt 2 2 exDs 0 exInfo where
  classify := rfl
  ty := rfl
  divisor := rfl
  bound := by
    intro k
    rw [ex_some]
    rfl
  onIC := ⟨⟨0, .num 0, .num 0⟩, .num 0, .num 0, 0, .num 0, fun _ _ => rfl⟩

theorem ex_assumed : Assumed exEngine "n" (fun _ => False) (fun _ => 0) exCmp noSums exSt 2 2 exDs 0 (fun _ => True) where
  nB := id
  cmpOk := exCmp_ok
  sums := fun _ => sums_none fun _ _ => rfl
  sumsFree := fun _ _ _ _ _ => free_num _
  dsFree := by
    intro d hd
    simp only [exDs, List.mem_singleton] at hd
    subst hd
    exact ⟨by simp [exSt, OnIC.Shape], free_num _⟩
  dec := (C152_polynomial (S := noSums) ex_division exCmp_ok (Nat.zero_le 1) ex_polynomial).1
  lower := fun ξ => (C152_polynomial (S := noSums) ex_division exCmp_ok (Nat.zero_le 1) ex_polynomial).2.1 ξ .lower
  upper := fun ξ => (C152_polynomial (S := noSums) ex_division exCmp_ok (Nat.zero_le 1) ex_polynomial).2.1 ξ .upper
  cond := Nat.zero_le 1
  differ := fun h => absurd h (by norm_num)
  rename := fun _ => ⟨rfl, fun _ _ => rfl⟩
  renameShape := fun _ h => h

/-- The history: the lower bound is computed, `x(1) = 5` is given, the upper bound is computed. -/
noncomputable def exState : RecState :=
  (((RecState.new exRhs).step exEngine .computeLower).step exEngine (.setICs [(1, .num 5)])).step exEngine .computeUpper

theorem ex_ics : exState.ics = [(1, .num 5)] := by
  have h : ∀ s : RecState, (approxFunctional exEngine s .upper).1.ics = s.ics := fun _ => rfl
  rfl

theorem ex_query (w : Which) (hw : w ≠ .exact) : ∃ v, (query exEngine w exState).2 = some v := by
  cases w with
  | exact => exact absurd rfl hw
  | lower => exact ⟨_, rfl⟩
  | upper => exact ⟨_, rfl⟩

/-- **C152**, a concrete case: all hypotheses hold, and after the history above both bounds are answered; they do not contain `x` and bound a
function that satisfies the equation that the user wrote and takes the value `5` at `1`. -/
theorem C152_nonvacuous : IsDivision "n" 1000 exRhs exSt 2 2 ∧ Wired exEngine OnIC.exOps "n" exCmp noSums exRhs exSt 2 2 exDs 0 exInfo ∧
    Assumed exEngine "n" (fun _ => False) (fun _ => 0) exCmp noSums exSt 2 2 exDs 0 (fun _ => True) ∧
    RecReach exEngine exRhs exState ∧
    ∃ ξ : ℝ → ℝ, Solves "n" (fun _ => 0) exRhs 2 ξ ∧ ξ 1 = 5 ∧ ξ 3 = 19 ∧
      ∃ l u, (query exEngine .lower exState).2 = some l ∧ (query exEngine .upper exState).2 = some u ∧ hasX l = false ∧ hasX u = false ∧
        ∀ N : ℕ, 2 ≤ N → val ξ (fun _ => 0) "n" l N ≤ ξ N ∧ ξ N ≤ val ξ (fun _ => 0) "n" u N := by
  have hr : RecReach exEngine exRhs exState := .step _ (.step _ (.step _ .new))
  obtain ⟨ξ, h1, h2⟩ := exists_solution 2 (le_refl 2) (val 0 (fun _ => 0) "n" exSt.inhom) (fun _ => 5)
  have hx1 : ξ 1 = 5 := by simpa using h2 1 le_rfl (by norm_num)
  have hs : Solves "n" (fun _ => 0) exRhs 2 ξ := (solves_iff ex_division ξ).mpr (by exact_mod_cast h1)
  have hic : ∀ p ∈ exState.ics, ∀ q : ℚ, p.2 = .num q → ξ (p.1 : ℝ) = q := by
    rw [ex_ics]
    intro p hp q hq
    simp only [List.mem_singleton] at hp
    subst hp
    cases hq
    simpa using hx1
  have hne : exState.ics ≠ [] := by rw [ex_ics]; simp
  obtain ⟨l, hl⟩ := ex_query .lower (by simp)
  obtain ⟨u, hu⟩ := ex_query .upper (by simp)
  obtain ⟨-, l1, l2⟩ := C152_answer_is_bound ex_division ex_wired ex_assumed hr hl ξ hs hic fun h => absurd h hne
  obtain ⟨-, u1, u2⟩ := C152_answer_is_bound ex_division ex_wired ex_assumed hr hu ξ hs hic fun h => absurd h hne
  refine ⟨ex_division, ex_wired, ex_assumed, hr, ξ, hs, hx1, ?_, l, u, hl, hu, l1 hne rfl, u1 hne rfl, fun N hN => ⟨l2 N hN trivial, u2 N hN trivial⟩⟩
  have := h1 3 (by norm_num)
  norm_num [val, exSt, eval] at this
  rw [this, hx1]
  norm_num

end Purrs.CapstoneDiv
