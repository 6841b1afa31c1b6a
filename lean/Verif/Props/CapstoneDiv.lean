import Verif.Props.CapstoneBounds
import Verif.Props.CapstoneVar
import Verif.Props.BoundsMono
import Mathlib.Algebra.Order.Floor.Semifield

/-!
# Functional equations: from the right-hand side written by the user, through any calls, to the bounds (C152)

The classification (C37), the bounds of `approximate_functional_equation` (C38, C39, C69, C70) and the state of the object with its initial
conditions (C140).
-/

set_option linter.unusedSectionVars false

namespace Purrs.CapstoneDiv

open Function (update update_of_ne update_self)
open OrderRed (withX eval_noX)
open Classify (St classify)
open OnIC (Shape shape_addE shape_mulE shape_powE shape_substitute shape_mono shape_hasX)
open Bounds
open WeightedAvg (divE)
open CapstoneBounds (SoundFunctional Sense FitsDiv)
open RecState

/-! ### `x` occurs in the bounds only in the term of the initial condition -/

section
variable {B : String → Prop} {n : String} {cmp : Expr → Expr → Cmp} {S : Sums} {t : Ty} {a b k : ℚ} {e w : Expr}

/-- No `x` at all. -/
abbrev Free (B : String → Prop) (e : Expr) : Prop := Shape B (fun _ => False) e

theorem free_num (q : ℚ) : Free B (.num q) := by simp [Free, Shape]
theorem free_sym (s : String) : Free B (.sym s) := by simp [Free, Shape]
theorem free_sub {x y : Expr} (hx : Free B x) (hy : Free B y) : Free B (subE x y) := shape_addE hx (shape_mulE (free_num _) hy)
theorem free_div {x y : Expr} (hx : Free B x) (hy : Free B y) : Free B (divE x y) := shape_mulE hx (shape_powE hy (free_num _))
theorem free_neg {x : Expr} (hx : Free B x) : Free B (negE x) := shape_mulE (free_num _) hx
theorem free_fn {f : Fn} (hf : f ≠ .x) {x : Expr} (hx : Free B x) : Free B (.fn f [x]) := by
  rw [Free, Shape]
  exact ⟨fun h => absurd h hf, by simpa using hx⟩
theorem free_ln {x : Expr} (hx : Free B x) : Free B (lnE x) := free_fn (by simp) hx

macro "free" : tactic =>
  `(tactic| repeat' (
    first
    | exact free_num _
    | exact free_sym _
    | assumption
    | apply free_ln
    | apply free_div
    | apply free_sub
    | apply free_neg
    | apply shape_addE
    | apply shape_mulE
    | apply shape_powE
    | refine free_fn (f := .other _) (by simp) ?_))

theorem free_muB : Free B (muB b) := by unfold muB; split_ifs <;> free
theorem free_lambdaB : Free B (lambdaB b) := by unfold lambdaB; split_ifs <;> free
theorem free_fracLog : Free B (fracLog n b) := by unfold fracLog; free
theorem free_powFracLog : Free B (powFracLog n a b) := by unfold powFracLog; free

theorem free_powLower (h : powLower n cmp a b k = some w) : Free B w := by
  have h1 := free_muB (B := B) (b := b)
  have h2 := free_lambdaB (B := B) (b := b)
  have h3 := free_fracLog (B := B) (n := n) (b := b)
  have h4 := free_powFracLog (B := B) (n := n) (a := a) (b := b)
  unfold powLower at h
  simp only at h
  split_ifs at h
  · cases h; unfold lowZero; split_ifs <;> free
  · cases h; unfold lowA; free
  · cases h; unfold lowB; free
  · cases h; unfold lowC; free
  · cases h; unfold lowD; free
  · split at h <;> cases h
    · unfold lowE; free
    · unfold lowF; free
    · unfold lowG; free

theorem free_powUpper (h : powUpper n cmp a b k = some w) : Free B w := by
  have h3 := free_fracLog (B := B) (n := n) (b := b)
  have h4 := free_powFracLog (B := B) (n := n) (a := a) (b := b)
  unfold powUpper at h
  simp only at h
  split at h <;> cases h <;> free

theorem free_powBound (h : powBound n cmp t a b k = some w) : Free B w := by
  cases t with
  | lower => exact free_powLower h
  | upper => exact free_powUpper h

theorem free_logBound (h : logBound n t a b = some w) : Free B w := by
  have h3 := free_fracLog (B := B) (n := n) (b := b)
  have h4 := free_powFracLog (B := B) (n := n) (a := a) (b := b)
  unfold logBound at h
  split at h
  · cases h
  · split_ifs at h <;> cases h <;> free

theorem free_powLogBound (h : powLogBound n cmp t a b k = some w) : Free B w := by
  have h3 := free_fracLog (B := B) (n := n) (b := b)
  have h4 := free_powFracLog (B := B) (n := n) (a := a) (b := b)
  unfold powLogBound at h
  split at h
  · cases h
  · simp only at h
    split at h <;> cases h <;> free

theorem free_expBound {c : ℚ} (h : expBound n cmp t a b c = some w) : Free B w := by
  unfold expBound at h
  split at h
  · cases h; free
  · simp only at h
    split at h <;> cases h <;> free

theorem free_scaled {c : Expr} {F : Ty → Option Expr} (hc : Free B c) (hF : ∀ t w, F t = some w → Free B w)
    (h : scaled cmp c F t = some w) : Free B w := by
  unfold scaled at h
  split at h
  · obtain ⟨v, hv, rfl⟩ := Option.map_eq_some_iff.mp h
    exact shape_mulE hc (hF _ _ hv)
  · obtain ⟨v, hv, rfl⟩ := Option.map_eq_some_iff.mp h
    exact shape_mulE hc (hF _ _ hv)
  · cases h

theorem free_factorLoop {pows logs : Bool} {l : List Expr} (hl : ∀ x ∈ l, Free B x) {r : ℚ × Expr × Bool}
    (h : Bounds.factorLoop n pows logs l = some r) : Free B r.2.1 := by
  induction l generalizing r with
  | nil =>
    simp only [Bounds.factorLoop, List.foldr_nil, Option.some.injEq] at h
    subst h; exact free_num _
  | cons x l ih =>
    simp only [Bounds.factorLoop, List.foldr_cons] at h
    change factorStep n pows logs x (Bounds.factorLoop n pows logs l) = some r at h
    cases hr : Bounds.factorLoop n pows logs l with
    | none => rw [hr] at h; simp [factorStep] at h
    | some r' =>
      have h1 := ih (fun y hy => hl y (by simp [hy])) hr
      rw [hr] at h
      unfold factorStep at h
      simp only at h
      by_cases c1 : logs ∧ x = lnE (.sym n)
      · rw [if_pos (by simpa using c1)] at h; cases h; exact h1
      · rw [if_neg (by simpa using c1)] at h
        by_cases c2 : pows ∧ x = .sym n
        · rw [if_pos (by simpa using c2)] at h; cases h; exact h1
        · rw [if_neg (by simpa using c2)] at h
          generalize (if pows = true then asPow n x else none) = o at h
          cases o with
          | some q => cases h; exact h1
          | none =>
            simp only at h
            by_cases c3 : isCoeff n x = true
            · rw [if_pos c3] at h; cases h; exact shape_mulE h1 (hl x (by simp))
            · rw [if_neg c3] at h; cases h

theorem free_sharperPoly (he : Free B e) (h : sharperPoly n cmp t a b e = some w) : Free B w := by
  unfold sharperPoly at h
  by_cases c1 : isCoeff n e = true
  · rw [if_pos c1] at h; exact free_scaled he (fun t w hw => free_powBound hw) h
  rw [if_neg c1] at h
  by_cases c2 : e = .sym n
  · rw [if_pos c2] at h; exact free_powBound h
  rw [if_neg c2] at h
  by_cases c3 : e = negE (.sym n)
  · rw [if_pos c3] at h; exact free_powBound h
  rw [if_neg c3] at h
  split at h
  · split_ifs at h; exact free_powBound h
  · rename_i l
    unfold polyMul at h
    cases hr : Bounds.factorLoop n true false l with
    | none => rw [hr] at h; cases h
    | some r =>
      rw [hr] at h
      refine free_scaled (free_factorLoop (fun x hx => ?_) hr) (fun t w hw => free_powBound hw) h
      rw [Free, Shape] at he; exact he x hx
  · cases h

theorem free_sharperNoPoly (he : Free B e) (h : sharperNoPoly n cmp t a b e = some w) : Free B w := by
  unfold sharperNoPoly at h
  by_cases c1 : e = lnE (.sym n)
  · rw [if_pos c1] at h; exact free_logBound h
  rw [if_neg c1] at h
  split at h
  · split_ifs at h; exact free_powBound h
  · rename_i l
    unfold noPolyMul at h
    cases hr : Bounds.factorLoop n true true l with
    | none => rw [hr] at h; cases h
    | some r =>
      rw [hr] at h
      have hc := free_factorLoop (B := B) (fun x hx => by rw [Free, Shape] at he; exact he x hx) hr
      obtain ⟨k, c, hl⟩ := r
      simp only at h
      split_ifs at h
      · exact free_scaled hc (fun t w hw => free_logBound hw) h
      · exact free_scaled hc (fun t w hw => free_powBound hw) h
      · exact free_scaled hc (fun t w hw => free_powLogBound hw) h
  · cases h

theorem free_sharperExp {c : ℚ} (he : Free B e) (h : sharperExp n cmp t a b c e = some w) : Free B w := by
  unfold sharperExp at h
  by_cases c0 : 1 ≤ a
  · rw [if_pos c0] at h
    by_cases c1 : isCoeff n e = true
    · rw [if_pos c1] at h; exact free_scaled he (fun t w hw => free_expBound hw) h
    rw [if_neg c1] at h
    split at h
    · rename_i l
      cases hr : Bounds.factorLoop n false false l with
      | none => rw [hr] at h; cases h
      | some r =>
        rw [hr] at h
        exact free_scaled (free_factorLoop (fun x hx => by rw [Free, Shape] at he; exact he x hx) hr) (fun t w hw => free_expBound hw) h
    · cases h
  · rw [if_neg c0] at h; cases h

/-- The sums computed contain no `x` if the summand contains none. -/
def SumsFree (B : String → Prop) (S : Sums) : Prop := ∀ t x a b, Free B x → Free B (S.sum t x a b)

theorem free_sumPart (hn : ¬ B n) (hS : SumsFree B S) (he : Free B e) : Free B (sumPart n S t a b e) := by
  have h3 := free_fracLog (B := B) (n := n) (b := b)
  unfold sumPart
  cases t <;> simp only <;>
  · refine shape_substitute ?_ (by simp) (fun s hs h => by cases h; exact hn hs) (fun q hq _ => hq) (hS _ _ _ _ he)
    free

theorem free_sharper {poly : Bool} (he : Free B e) (h : sharper n cmp poly t a b e = some w) : Free B w := by
  unfold sharper at h
  split_ifs at h
  · exact free_sharperPoly he h
  · exact free_sharperNoPoly he h

theorem free_getD {s : Option Expr} (h : ∀ w, s = some w → Free B w) : Free B (s.getD (.num 0)) := by
  cases s with
  | none => exact free_num _
  | some v => exact h v rfl

theorem free_addendPart {poly : Bool} {base : ℚ} (hn : ¬ B n) (hS : SumsFree B S) (he : Free B e)
    (h : addendPart n cmp S poly base t a b e = some w) : Free B w := by
  unfold addendPart at h
  simp only at h
  by_cases c1 : sharper n cmp poly t a b e = none ∨ base ≠ 1
  · rw [if_pos c1] at h
    split_ifs at h
    cases h
    exact shape_addE (free_getD fun w hw => free_sharper he hw) (free_sumPart hn hS (shape_mulE he (shape_powE (free_num _) (free_sym _))))
  · rw [if_neg c1] at h
    exact free_sharper he h

theorem free_singlePart {poly : Bool} {base : ℚ} (hn : ¬ B n) (hS : SumsFree B S) (he : Free B e)
    (h : singlePart n cmp S poly base t a b e = some w) : Free B w := by
  have hs : ∀ w, (if e = .num 0 then some (.num 0) else sharper n cmp poly t a b e) = some w → Free B w := by
    intro w hw
    by_cases c : e = .num 0
    · rw [if_pos c] at hw; cases hw; exact free_num _
    · rw [if_neg c] at hw; exact free_sharper he hw
  unfold singlePart at h
  simp only at h
  generalize (if e = .num 0 then some (.num 0) else sharper n cmp poly t a b e) = s at h hs
  by_cases c1 : s = none ∨ base ≠ 1
  · rw [if_pos c1] at h
    split_ifs at h
    cases h
    exact shape_addE (free_getD hs) (free_sumPart hn hS he)
  · rw [if_neg c1] at h
    exact hs w h

theorem free_addO {x y : Option Expr} (hx : ∀ w, x = some w → Free B w) (hy : ∀ w, y = some w → Free B w) (h : addO x y = some w) : Free B w := by
  obtain ⟨u, v, rfl, rfl, rfl⟩ := addO_eq h
  exact shape_addE (hx u rfl) (hy v rfl)

theorem free_partBound {poly : Bool} {base : ℚ} (hn : ¬ B n) (hS : SumsFree B S) (he : Free B e)
    (h : partBound n cmp S poly base t a b e = some w) : Free B w := by
  unfold partBound at h
  split at h
  · rename_i l
    have hl : ∀ x ∈ l, Free B x := by rw [Free, Shape] at he; exact he
    clear he
    induction l generalizing w with
    | nil => simp only [List.foldr_nil, Option.some.injEq] at h; subst h; exact free_num _
    | cons x l ih =>
      simp only [List.foldr_cons] at h
      exact free_addO (fun w hw => ih hw fun y hy => hl y (by simp [hy])) (fun w hw => free_addendPart hn hS (hl x (by simp)) hw) h
  · exact free_singlePart hn hS he h

theorem free_termBound {d : Expr × Expr × Expr} (hn : ¬ B n) (hS : SumsFree B S) (h1 : Free B d.2.1) (h2 : Free B d.2.2)
    (h : termBound n cmp S t a b d = some w) : Free B w := by
  unfold termBound at h
  split at h
  · rename_i c _
    by_cases c0 : 0 < c
    · rw [if_pos c0] at h
      by_cases c1 : c = 1
      · rw [if_pos c1] at h
        exact free_addO (fun w hw => free_partBound hn hS h1 hw) (fun w hw => free_partBound hn hS h2 hw) h
      · rw [if_neg c1] at h
        refine free_addO (fun w hw => ?_) (fun w hw => ?_) h
        · by_cases c2 : d.2.1 = .num 0
          · rw [if_pos c2] at hw; cases hw; exact free_num _
          · rw [if_neg c2] at hw
            cases hs : sharperExp n cmp t a b c d.2.1 with
            | some s => rw [hs] at hw; cases hw; exact free_sharperExp h1 hs
            | none => rw [hs] at hw; exact free_partBound hn hS h1 hw
        · by_cases c2 : d.2.2 = .num 0
          · rw [if_pos c2] at hw; cases hw; exact free_num _
          · rw [if_neg c2] at hw
            exact free_partBound hn hS h2 hw
    · rw [if_neg c0] at h; cases h
  · cases h

theorem free_nonHomogeneous {ds : List (Expr × Expr × Expr)} (hn : ¬ B n) (hS : SumsFree B S) (hd : ∀ d ∈ ds, Free B d.2.1 ∧ Free B d.2.2)
    (h : nonHomogeneous n cmp S t a b ds = some w) : Free B w := by
  induction ds generalizing w with
  | nil => simp only [nonHomogeneous, List.foldr_nil, Option.some.injEq] at h; subst h; exact free_num _
  | cons d ds ih =>
    simp only [nonHomogeneous, List.foldr_cons] at h
    exact free_addO (fun w hw => ih (fun x hx => hd x (by simp [hx])) hw)
      (fun w hw => free_termBound hn hS (hd d (by simp)).1 (hd d (by simp)).2 hw) h

/-- The bound is a part without `x` and the term of the initial condition. -/
theorem approximate_form {g : Expr} {ds : List (Expr × Expr × Expr)} {c : ℕ} (hn : ¬ B n) (hS : SumsFree B S)
    (hd : ∀ d ∈ ds, Free B d.2.1 ∧ Free B d.2.2) (h : approximate n cmp S t (.num a) b g ds c = some w) :
    ∃ s, Free B s ∧ w = addE s (initialTerm n t c a b) := by
  unfold approximate at h
  simp only at h
  by_cases c0 : 0 < a ∧ ¬ b < 1 ∧ b.den = 1 ∧ hasParameters n g = false
  · rw [if_pos c0] at h
    obtain ⟨s, hs, rfl⟩ := Option.map_eq_some_iff.mp h
    refine ⟨s, ?_, rfl⟩
    by_cases c1 : g = .num 0
    · rw [if_pos c1] at hs; cases hs; exact free_num _
    · rw [if_neg c1] at hs
      exact free_nonHomogeneous hn hS hd hs
  · rw [if_neg c0] at h; cases h

theorem shape_initial {c : ℕ} (hc : c ≤ 1) : Shape B (fun q => q = 1) (initialTerm n t c a 2) := by
  have h3 : ∀ q, Free B (.num q) := free_num
  have h4 := free_fracLog (B := B) (n := n) (b := 2)
  unfold initialTerm
  simp only [if_true, if_neg (by omega : ¬ 1 < c)]
  refine shape_mulE (shape_powE (by simp [Shape]) (shape_mono (fun _ h => False.elim h) ?_)) ?_
  · split_ifs
    · exact free_sub h4 (h3 1)
    · exact h4
  · rw [Shape]
    exact ⟨fun _ => ⟨1, rfl, rfl⟩, by simp [Shape]⟩

end

/-! ### The class of right-hand sides -/

/-- The right-hand side is classified as `a x(n/b) + g(n)` with a positive number `a` and an integer `b ≥ 2`, without parameters. -/
structure IsDivision (n : String) (ms : ℕ) (e : Expr) (st : St) (a : ℚ) (b : ℕ) : Prop where
  ok : classify n ms e = .ok st
  ty : st.ty = .functional
  homog : st.homog = [((b : ℚ), .num a)]
  nodup : (Classify.divisors n e).Nodup
  pos : 0 < a
  two : 2 ≤ b
  plain : hasParameters n st.inhom = false

/-- `ξ` satisfies the equation that the user wrote from `b` on, where `x(q)` stands for the value of `ξ` at the integer part of `q`. -/
def Solves (n : String) (ρ : String → ℝ) (e : Expr) (b : ℕ) (ξ : ℝ → ℝ) : Prop :=
  ∀ N : ℕ, b ≤ N → ξ N = eval (withX (realInterp 0) fun q => ξ ⌊q⌋₊) (update ρ n (N : ℝ)) e

variable {n : String} {ms : ℕ} {e : Expr} {st : St} {a : ℚ} {b : ℕ} {ρ : String → ℝ}

theorem inhom_val (hL : IsDivision n ms e st a b) (X : ℝ → ℝ) (N : ℕ) :
    eval (withX (realInterp 0) X) (update ρ n (N : ℝ)) st.inhom = val 0 ρ n st.inhom N := by
  rw [eval_noX (realInterp 0) X 0 _ (CapstoneVar.noX_of_noParameters hL.plain), NonLinear.withX_real]
  rfl

theorem val_inhom (hL : IsDivision n ms e st a b) (ξ : ℝ → ℝ) : val ξ ρ n st.inhom = val 0 ρ n st.inhom := by
  funext N
  rw [← inhom_val hL ξ N, NonLinear.withX_real]
  rfl

/-- What the user wrote is `a x(n/b) + g(n)`. -/
theorem solves_iff (hL : IsDivision n ms e st a b) (ξ : ℝ → ℝ) :
    Solves n ρ e b ξ ↔ Satisfies ξ a b (val 0 ρ n st.inhom) := by
  have key : ∀ N : ℕ, eval (withX (realInterp 0) fun q => ξ ⌊q⌋₊) (update ρ n (N : ℝ)) e =
      a * ξ ((N / b : ℕ) : ℝ) + val 0 ρ n st.inhom N := by
    intro N
    rw [Classify.C37_identity_partial hL.ok hL.ty hL.nodup, hL.homog, inhom_val hL]
    have h1 : ⌊(N : ℝ) / ((b : ℚ) : ℝ)⌋₊ = N / b := by
      have : (N : ℝ) / ((b : ℚ) : ℝ) = (N : ℝ) / (b : ℝ) := by push_cast; rfl
      rw [this, Nat.floor_div_eq_div]
    simp only [List.map_cons, List.map_nil, List.sum_cons, List.sum_nil, add_zero, h1]
    simp [eval]
  exact ⟨fun h N hN => (h N hN).trans (key N), fun h N hN => (h N hN).trans (key N).symm⟩

/-- What is returned for a bound, possibly with the symbols renamed. -/
inductive Returned (E : Engine) (n : String) (cmp : Expr → Expr → Cmp) (S : Sums) (t : Ty) (a : ℚ) (b : ℕ) (g : Expr) (ds : List (Expr × Expr × Expr))
    (c : ℕ) : Expr → Prop
  | bound {x : Expr} : approximate n cmp S t (.num a) b g ds c = some x → Returned E n cmp S t a b g ds c x
  | rename {x : Expr} : Returned E n cmp S t a b g ds c x → Returned E n cmp S t a b g ds c (E.rename x)

/-- The bound asked for. -/
def ofKind : BoundKind → Ty
  | .lower => .lower
  | .upper => .upper

/-- The parts behind the object are those of the library. -/
structure Wired (E : Engine) (O : OnIC.Ops) (n : String) (cmp : Expr → Expr → Cmp) (S : Sums) (e : Expr) (st : St) (a : ℚ) (b : ℕ)
    (ds : List (Expr × Expr × Expr)) (c : ℕ) (info : Info) : Prop where
  classify : E.classify e = (.success, info, e)
  ty : info.ty = .functional
  divisor : info.divisor = b
  bound : ∀ k, E.bound e info k =
    match approximate n cmp S (ofKind k) (.num a) b st.inhom ds c with
    | some x => .ok x
    | none => .error .tooComplex
  onIC : ∃ d w' g' z s1, ∀ m x, E.onIC e info m x = (OnIC.evaluate O n info d w' g' z s1 m x).getD (.num 0)

/-- What is assumed of the other operations: comparisons are right when they decide, the decomposition `ds` of the inhomogeneous term is right
and its terms are among those of C38 and C39, sums are right at the points `D`, renaming keeps values and the form of the expressions.  For
`a = 1` the two bounds have different values somewhere (if they are the same expression the object has a wrong exact solution). -/
structure Assumed (E : Engine) (n : String) (B : String → Prop) (ρ : String → ℝ) (cmp : Expr → Expr → Cmp) (S : Sums) (st : St) (a : ℚ) (b : ℕ)
    (ds : List (Expr × Expr × Expr)) (c : ℕ) (D : ℕ → Prop) : Prop where
  nB : ¬ B n
  cmpOk : ∀ ξ, CmpOk ξ ρ n cmp
  sums : ∀ ξ, SumsOk ξ ρ n a b D S
  sumsFree : SumsFree B S
  dsFree : ∀ d ∈ ds, Free B d.2.1 ∧ Free B d.2.2
  dec : ∀ ξ, ∀ m : ℕ, 1 ≤ m → val ξ ρ n st.inhom m = (ds.map fun d => decVal ξ ρ n d m).sum
  lower : ∀ ξ, ∀ d ∈ ds, DecOk ξ ρ n cmp a b .lower d
  upper : ∀ ξ, ∀ d ∈ ds, DecOk ξ ρ n cmp a b .upper d
  cond : c ≤ 1
  differ : a = 1 → ∀ l u, approximate n cmp S .lower (.num a) b st.inhom ds c = some l → approximate n cmp S .upper (.num a) b st.inhom ds c = some u →
    ∃ (ξ : ℝ → ℝ) (N : ℕ), val ξ ρ n l N ≠ val ξ ρ n u N
  rename : ∀ x, hasX (E.rename x) = hasX x ∧ ∀ (ξ : ℝ → ℝ) (N : ℕ), val ξ ρ n (E.rename x) N = val ξ ρ n x N
  renameShape : ∀ x, Shape B (fun q => q = 1) x → Shape B (fun q => q = 1) (E.rename x)

variable {E : Engine} {O : OnIC.Ops} {B : String → Prop} {cmp : Expr → Expr → Cmp} {S : Sums} {ds : List (Expr × Expr × Expr)} {c : ℕ} {D : ℕ → Prop}
  {info : Info}

/-- Everything returned has the values of the bound computed. -/
theorem returned_val (hA : Assumed E n B ρ cmp S st a b ds c D) {t : Ty} {x : Expr} (h : Returned E n cmp S t a b st.inhom ds c x) :
    ∃ w, approximate n cmp S t (.num a) b st.inhom ds c = some w ∧ ∀ ξ N, val ξ ρ n x N = val ξ ρ n w N := by
  induction h with
  | bound h => exact ⟨_, h, fun _ _ => rfl⟩
  | rename h ih =>
    obtain ⟨w, h1, h2⟩ := ih
    exact ⟨w, h1, fun ξ N => ((hA.rename _).2 ξ N).trans (h2 ξ N)⟩

theorem returned_shape (hA : Assumed E n B ρ cmp S st a b ds c D) (hb : b = 2) {t : Ty} {x : Expr} (h : Returned E n cmp S t a b st.inhom ds c x) :
    Shape B (fun q => q = 1) x := by
  induction h with
  | bound h =>
    obtain ⟨s, h1, rfl⟩ := approximate_form hA.nB hA.sumsFree hA.dsFree h
    subst hb
    exact shape_addE (shape_mono (fun _ h => False.elim h) h1) (shape_initial hA.cond)
  | rename h ih => exact hA.renameShape _ ih

/-- The coefficient of the initial condition in the bound, at `n = 1`. -/
theorem initial_at_one (t : Ty) (ξ : ℝ → ℝ) (hξ : ∀ q, ξ q = 1) :
    val ξ ρ n (initialTerm n t c a b) 1 = (a : ℝ) ^ (if (a < 1 ∧ t = .upper) ∨ (1 < a ∧ t = .lower) then (-1 : ℝ) else 0) := by
  unfold initialTerm
  simp only [val, eval_mulE, eval_powE]
  have hx : ∀ idx, eval (realInterp ξ) (update ρ n ((1 : ℕ) : ℝ)) (.fn .x [idx]) = 1 := by
    intro idx; simp [eval, realInterp, realFn, hξ]
  have hf : eval (realInterp ξ) (update ρ n ((1 : ℕ) : ℝ)) (fracLog n b) = 0 := by
    simp [fracLog, divE, lnE, eval_mulE, eval_powE, eval, realInterp, realFn]
  rw [hx, mul_one]
  have hp : ∀ u v : ℝ, (realInterp ξ).pw u v = u ^ v := fun _ _ => rfl
  rw [hp]
  split_ifs
  · rw [eval_subE, hf]; simp [eval]
  · rw [hf]; simp [eval]

/-- The two bounds are never the same expression. -/
theorem apart (hL : IsDivision n ms e st a b) (hA : Assumed E n B ρ cmp S st a b ds c D) (x : Expr) :
    ¬ (Returned E n cmp S .lower a b st.inhom ds c x ∧ Returned E n cmp S .upper a b st.inhom ds c x) := by
  rintro ⟨h1, h2⟩
  obtain ⟨l, hl, vl⟩ := returned_val hA h1
  obtain ⟨u, hu, vu⟩ := returned_val hA h2
  have same : ∀ ξ N, val ξ ρ n l N = val ξ ρ n u N := fun ξ N => (vl ξ N).symm.trans (vu ξ N)
  by_cases ha : a = 1
  · obtain ⟨ξ, N, hne⟩ := hA.differ ha l u hl hu
    exact hne (same ξ N)
  · obtain ⟨s1, f1, rfl⟩ := approximate_form hA.nB hA.sumsFree hA.dsFree hl
    obtain ⟨s2, f2, rfl⟩ := approximate_form hA.nB hA.sumsFree hA.dsFree hu
    have free : ∀ {s : Expr}, Free B s → ∀ ξ : ℝ → ℝ, val ξ ρ n s 1 = val 0 ρ n s 1 := by
      intro s hs ξ
      unfold val
      rw [← NonLinear.withX_real ξ, eval_noX (realInterp 0) ξ 0 s (shape_hasX hs), NonLinear.withX_real 0]
    have k1 := same (fun _ => 1) 1
    have k0 := same 0 1
    have add : ∀ (ξ : ℝ → ℝ) (x y : Expr), val ξ ρ n (addE x y) 1 = val ξ ρ n x 1 + val ξ ρ n y 1 := by
      intro ξ x y; unfold val; rw [eval_addE]
    have zero : ∀ t, val 0 ρ n (initialTerm n t c a b) 1 = 0 := by
      intro t
      unfold initialTerm
      simp only [val, eval_mulE]
      simp [eval, realInterp, realFn]
    rw [add, add, free f1, free f2, initial_at_one _ _ (fun _ => rfl), initial_at_one _ _ (fun _ => rfl)] at k1
    rw [add, add, zero, zero] at k0
    have hpos : (0 : ℝ) < a := by exact_mod_cast hL.pos
    have hk : (a : ℝ) ^ (if (a < 1 ∧ Ty.lower = .upper) ∨ (1 < a ∧ Ty.lower = .lower) then (-1 : ℝ) else 0) =
        (a : ℝ) ^ (if (a < 1 ∧ Ty.upper = .upper) ∨ (1 < a ∧ Ty.upper = .lower) then (-1 : ℝ) else 0) := by linarith
    have hinv : (a : ℝ) ≠ 1 := fun h => ha (by exact_mod_cast h)
    rcases lt_or_gt_of_ne ha with h | h
    · simp [h, not_lt.mpr h.le, Real.rpow_neg_one] at hk
      exact hinv hk
    · simp [h, not_lt.mpr h.le, Real.rpow_neg_one] at hk
      exact hinv hk

/-- Everything that C140 assumes holds. -/
theorem sound (hL : IsDivision n ms e st a b) (hW : Wired E O n cmp S e st a b ds c info) (hA : Assumed E n B ρ cmp S st a b ds c D) :
    SoundFunctional E O n B ρ e a b (val 0 ρ n st.inhom) D (Returned E n cmp S .lower a b st.inhom ds c) (Returned E n cmp S .upper a b st.inhom ds c) := by
  have hc := hW.classify
  have bd : ∀ k x, E.bound e info k = .ok x → Returned E n cmp S (ofKind k) a b st.inhom ds c x := by
    intro k x h
    rw [hW.bound] at h
    cases hx : approximate n cmp S (ofKind k) (.num a) b st.inhom ds c with
    | none => rw [hx] at h; cases h
    | some y => rw [hx] at h; cases h; exact .bound hx
  exact {
    classified := by rw [hc]; simp
    ty := by rw [hc]; exact hW.ty
    divisor := by rw [hc]; exact hW.divisor
    lower := by rw [hc]; exact bd .lower
    upper := by rw [hc]; exact bd .upper
    renameL := fun x h => .rename h
    renameU := fun x h => .rename h
    apart := apart hL hA
    shape := fun hb x h => h.elim (returned_shape hA hb) (returned_shape hA hb)
    soundL := by
      intro x hx ξ hξ hpos N hN hD
      obtain ⟨w, h1, h2⟩ := returned_val hA hx
      rw [h2]
      exact C39_lower_partial (hA.cmpOk ξ) hL.two (hA.sums ξ) (hA.dec ξ) (hA.lower ξ) hA.cond h1 (by rw [val_inhom hL]; exact hξ) hpos N hN hD
    soundU := by
      intro x hx ξ hξ hpos N hN hD
      obtain ⟨w, h1, h2⟩ := returned_val hA hx
      rw [h2]
      exact C38_upper_partial (hA.cmpOk ξ) hL.two (hA.sums ξ) (hA.dec ξ) (hA.upper ξ) hA.cond h1 (by rw [val_inhom hL]; exact hξ) hpos N hN hD
    onIC := by
      obtain ⟨d, w', g', z, s1, h⟩ := hW.onIC
      exact ⟨d, w', g', z, s1, by rw [hc]; exact h⟩
    renameIC := hA.rename }

/-- **C152.**  The user writes `x(n) = a x(n/b) + g(n)`.  Whatever calls were made before, an answer of `lower_bound()` (`upper_bound()`) is a
bound of every function that satisfies the equation that the user wrote: without initial conditions if its initial values are non-negative,
with initial conditions in force if it takes these values; then, if `b = 2`, the answer does not contain `x`.  There is no answer of
`exact_solution()`. -/
theorem C152_answer_is_bound (hL : IsDivision n ms e st a b) (hW : Wired E O n cmp S e st a b ds c info) (hA : Assumed E n B ρ cmp S st a b ds c D)
    {s : RecState} (h : RecReach E e s) {w : Which} {v : Expr} (hv : (query E w s).2 = some v) (ξ : ℝ → ℝ) (hξ : Solves n ρ e b ξ)
    (hic : ∀ p ∈ s.ics, ∀ q : ℚ, p.2 = .num q → ξ (p.1 : ℝ) = q) (hpos : s.ics = [] → ∀ i : ℕ, 1 ≤ i → i < b → 0 ≤ ξ i) :
    w ≠ .exact ∧ (s.ics ≠ [] → b = 2 → hasX v = false) ∧ ∀ N : ℕ, b ≤ N → D N → Sense w (val ξ ρ n v N) (ξ N) :=
  CapstoneBounds.C140_answer_is_bound (sound hL hW hA) h hv ξ ⟨(solves_iff hL ξ).mp hξ, hic⟩ hpos

/-- The terms of the inhomogeneous part: `c n^k` with `c > 0`, in the range of the lower bound of C70. -/
def Polynomial (n : String) (cmp : Expr → Expr → Cmp) (a : ℚ) (b : ℕ) (g : Expr) : Prop :=
  ∀ x ∈ addends g, ∃ c k, Mono n c k x ∧ Decided cmp a b c k ∧ InRange a b k

/-- **C152**, nothing left out: if the inhomogeneous term is a sum of terms `c n^k` with `c > 0` in the range of C70, both bounds are computed
and what is assumed of the decomposition and of its terms holds. -/
theorem C152_polynomial (hL : IsDivision n ms e st a b) (hcmp : ∀ ξ, CmpOk ξ ρ n cmp) (hc : c ≤ 1) (hp : Polynomial n cmp a b st.inhom) :
    (∀ ξ, ∀ m : ℕ, 1 ≤ m → val ξ ρ n st.inhom m = ([(.num 1, st.inhom, .num 0)].map fun d : Expr × Expr × Expr => decVal ξ ρ n d m).sum) ∧
    (∀ ξ t, ∀ d ∈ [((.num 1, st.inhom, .num 0) : Expr × Expr × Expr)], DecOk ξ ρ n cmp a b t d) ∧
    ∀ t, ∃ w, approximate n cmp S t (.num a) b st.inhom [(.num 1, st.inhom, .num 0)] c = some w := by
  refine ⟨fun ξ m hm => ?_, fun ξ t d hd => ?_, fun t => ?_⟩
  · simp [decVal, val, eval]
  · simp only [List.mem_singleton] at hd
    subst hd
    refine Or.inl ⟨rfl, Or.inr fun x hx => ?_, Or.inl rfl⟩
    obtain ⟨c, k, hm, hd, hr⟩ := hp x hx
    refine mono_termOk (hcmp ξ) hm hd fun _ => ?_
    rcases hr with h | ⟨h1, h2, h3⟩ | h
    · exact Or.inl h
    · exact Or.inr (Or.inl ⟨h1, h2⟩)
    · exact Or.inr (Or.inr h)
  · obtain ⟨ξ, h1, h2⟩ := exists_solution a hL.two (val 0 ρ n st.inhom) (fun _ => 0)
    have hpos : ∀ i : ℕ, 1 ≤ i → i < b → 0 ≤ ξ i := fun i hi hib => by rw [h2 i hi hib]
    have hsat : Satisfies ξ a b (val ξ ρ n st.inhom) := by rw [val_inhom hL]; exact h1
    cases t with
    | lower =>
      obtain ⟨w, hw, -⟩ := C70_lower n a b c S cmp ξ ρ st.inhom (hcmp ξ) hL.pos hL.two hc hp hL.plain hsat hpos
      exact ⟨w, hw⟩
    | upper =>
      obtain ⟨w, hw, -⟩ := C69_upper n a b c S cmp ξ ρ st.inhom st.inhom (.num 0) (hcmp ξ) hL.pos hL.two hc
        (Or.inr fun x hx => by obtain ⟨c, k, hm, hd, -⟩ := hp x hx; exact ⟨c, k, hm, hd⟩) (Or.inl rfl) hL.plain
        (fun m _ => by simp [val, eval]) hsat hpos
      exact ⟨w, hw⟩

end Purrs.CapstoneDiv
