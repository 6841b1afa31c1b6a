import Verif.Model.SolveLinear
import Verif.Props.ExactEnd
import Verif.Props.ExactUnique
import Verif.Props.OnICRest
import Verif.Props.Verify
import Verif.Props.Decomp

/-!
# The expression returned by the linear solver (C145)
-/

set_option linter.unusedSectionVars false

namespace Purrs.SolveLin

open Function (update update_of_ne update_self)
open OrderRed (withX eval_x eval_noX SolvesAt IsSolution idxNe)
open OrderRed (idxNe_addE idxNe_mulE idxNe_powE)
open OnIC (Shape Indep shape_addE shape_mulE shape_powE shape_substitute shape_hasX shape_mono subst_sym)
open WeightedAvg (shiftN divE eval_subst_shift idxNe_substN hasX_substN hasX_shiftN idxNe_shiftN idxNe_subE)
open Verify (xAt xDec subX xOut substLoop)
open Polynomial Purrs.Exact

variable {K : Type} [Field K] [CharZero K] {I : Interp K}

/-! ### Specification -/

/-- A valuation at the index `N`: it differs from `ρ` at most in `n`, which is `N`, and in the unknowns. -/
def Agrees (n : String) (U : String → Prop) (ρ σ : String → K) (N : ℕ) : Prop := σ n = N ∧ ∀ t, t ≠ n → ¬ U t → σ t = ρ t

/-- From the index `f` on the expression has the values `s`, whatever values `x` and the unknowns have. -/
def Denotes (I : Interp K) (n : String) (U : String → Prop) (ρ : String → K) (f : ℕ) (e : Expr) (s : ℕ → K) : Prop :=
  ∀ (X : K → K) (σ : String → K) (N : ℕ), f ≤ N → Agrees n U ρ σ N → eval (withX I X) σ e = s N

/-- The value depends only on the symbols outside `V`. -/
def Ignores (I : Interp K) (V : String → Prop) (e : Expr) : Prop :=
  ∀ (X : K → K) (σ τ : String → K), (∀ t, ¬ V t → σ t = τ t) → eval (withX I X) σ e = eval (withX I X) τ e

/-- A simplification keeps the values from the index `f` on, for all values of the unknowns, and introduces neither `x` nor new summation
indices. -/
structure Keeps (I : Interp K) (n : String) (U : String → Prop) (ρ : String → K) (f : ℕ) (B : String → Prop) (g : Expr → Expr) : Prop where
  val : ∀ e, hasX e = false → idxNe n e = true → ∀ (X : K → K) (σ : String → K) (N : ℕ), f ≤ N → Agrees n U ρ σ N →
    eval (withX I X) σ (g e) = eval (withX I X) σ e
  noX : ∀ e, hasX e = false → idxNe n e = true → hasX (g e) = false
  idx : ∀ e, hasX e = false → idxNe n e = true → idxNe n (g e) = true
  shape : ∀ e, Shape B (fun _ => False) e → Shape B (fun _ => False) (g e)

/-- The same for expressions in which the symbolic initial conditions `x(q)`, `q ∈ S`, occur. -/
structure KeepsX (I : Interp K) (n : String) (ρ : String → K) (f : ℕ) (B : String → Prop) (S : ℚ → Prop) (g : Expr → Expr) : Prop where
  val : ∀ e, Shape B S e → ∀ (X : K → K) (N : ℕ), f ≤ N → eval (withX I X) (update ρ n N) (g e) = eval (withX I X) (update ρ n N) e
  shape : ∀ e, Shape B S e → Shape B S (g e)

/-- The valuation differs from `ρ` at most in `n` and in the unknowns. -/
def Same (n : String) (U : String → Prop) (ρ σ : String → K) : Prop := ∀ t, t ≠ n → ¬ U t → σ t = ρ t

/-- The equations hold. -/
def Sat (I : Interp K) (X : K → K) (σ : String → K) (eqs : List (Expr × Expr)) : Prop :=
  ∀ p ∈ eqs, eval (withX I X) σ p.1 = eval (withX I X) σ p.2

/-- Each of the unknowns `u 0, …, u (m - 1)` either has the same value in all solutions of the equations or can be changed arbitrarily in every
solution. -/
def Separate (I : Interp K) (n : String) (U : String → Prop) (ρ : String → K) (eqs : List (Expr × Expr)) (m : ℕ) (u : ℕ → String) : Prop :=
  ∀ i < m, (∀ (X : K → K) (σ τ : String → K), Same n U ρ σ → Same n U ρ τ → Sat I X σ eqs → Sat I X τ eqs → σ (u i) = τ (u i)) ∨
    ∀ (X : K → K) (σ : String → K) (w : K), Same n U ρ σ → Sat I X σ eqs → Sat I X (update σ (u i) w) eqs

/-- What `lsolve` returns for the equations `eqs` and the `m` unknowns `u 0, u 1, …`: for each unknown itself, if it is left undetermined, or an
expression free of `n` and of unknowns; the equations hold whenever the determined unknowns have these values. -/
structure Solution (I : Interp K) (n : String) (B U : String → Prop) (ρ : String → K) (S : ℚ → Prop) (eqs : List (Expr × Expr)) (m : ℕ)
    (u : ℕ → String) (vals : List Expr) : Prop where
  len : vals.length = m
  each : ∀ i < m, vals.getD i (.num 0) = .sym (u i) ∨
    (Shape B S (vals.getD i (.num 0)) ∧ Ignores I (fun t => B t ∨ t = n ∨ U t) (vals.getD i (.num 0)))
  sat : ∀ (X : K → K) (σ : String → K), Same n U ρ σ →
    (∀ i < m, vals.getD i (.num 0) = .sym (u i) ∨ σ (u i) = eval (withX I X) σ (vals.getD i (.num 0))) → Sat I X σ eqs

/-- The symbolic initial conditions `x(f), …, x(f + k - 1)`. -/
def ICs (f k : ℕ) (q : ℚ) : Prop := ∃ i < k, q = ((f + i : ℕ) : ℚ)

/-- The new symbols. -/
def Unknown (O : Ops) (t : String) : Prop := ∃ j i, t = O.unknown j i

/-- What is assumed of the operations that are parameters: the simplifications keep the values, the new symbols are new, `lsolve` returns solutions
of the systems given to it in which every unknown is either determined or arbitrary. -/
structure OpsOk (I : Interp K) (O : Ops) (n : String) (B : String → Prop) (ρ : String → K) (f k : ℕ) : Prop where
  expand : Keeps I n (Unknown O) ρ f B O.expand
  simp : Keeps I n (Unknown O) ρ f B O.simp
  epSimp : Keeps I n (Unknown O) ρ f B O.epSimp
  rw : KeepsX I n ρ f B (ICs f k) O.rw
  collect : ∀ c, KeepsX I n ρ f B (ICs f k) (O.collect c)
  notB : ∀ j i, ¬ B (O.unknown j i)
  nB : ¬ B n
  ne : ∀ j i, O.unknown j i ≠ n
  inj : ∀ j i i', O.unknown j i = O.unknown j i' → i = i'
  lsolve : ∀ S eqs m j vals, S = (fun _ => False) ∨ S = ICs f k → O.lsolve eqs ((List.range m).map (O.unknown j)) = some vals →
    (∀ p ∈ eqs, Shape B S p.1 ∧ Shape B S p.2 ∧ Ignores I (fun t => t = n) p.1 ∧ Ignores I (fun t => t = n) p.2) →
    Separate I n (Unknown O) ρ eqs m (O.unknown j) → Solution I n B (Unknown O) ρ S eqs m (O.unknown j) vals

/-- The recurrence is `x(n) = a 1 x(n-1) + … + a k x(n-k) + p(n)` from `f + k` on; in the difference of the right-hand side and the inhomogeneous
term `x` occurs only as `x(n-1), …, x(n-k)`. -/
structure RecIs (I : Interp K) (O : Ops) (n : String) (B : String → Prop) (ρ : String → K) (f k : ℕ) (rhs inhom : Expr) (a : ℕ → K) (p : ℕ → K) :
    Prop where
  lin : ∀ (X : K → K) (σ : String → K) (N : ℕ), f + k ≤ N → Agrees n (Unknown O) ρ σ N →
    eval (withX I X) σ rhs = (∑ i ∈ Finset.range k, a (i + 1) * X ((N - (i + 1) : ℕ) : K)) + p N
  inhomVal : Denotes I n (Unknown O) ρ f inhom p
  shape : Shape B (fun _ => False) inhom
  auto : ∀ (X : K → K) (σ : String → K) (N : ℕ), f + k ≤ N → Agrees n (Unknown O) ρ σ N →
    eval (withX I X) σ (O.auto (subE rhs inhom)) = eval (withX I X) σ (subE rhs inhom)
  out : xOut n (List.range' 1 k) (O.auto (subE rhs inhom)) = true

/-- One term of the decomposition: base different from 0 and polynomial in `n`, whose degree is recognised. -/
structure TermIs (I : Interp K) (O : Ops) (n : String) (B : String → Prop) (ρ : String → K) (f : ℕ) (t : Expr × Expr × Expr) (b : K) (P : K[X]) :
    Prop where
  ne : b ≠ 0
  base : Denotes I n (Unknown O) ρ f t.1 fun _ => b
  poly : Denotes I n (Unknown O) ρ f t.2.1 fun N => P.eval (N : K)
  degree : O.degree t.2.1 = P.natDegree
  shapeB : Shape B (fun _ => False) t.1
  shapeP : Shape B (fun _ => False) t.2.1

/-- The expression is recognised as a polynomial in `n`: it is the sum of its coefficients times the powers of `n`;
the coefficients beyond the degree are 0. -/
structure Recognised (I : Interp K) (O : Ops) (n : String) (B : String → Prop) (ρ : String → K) (start : ℕ) (e : Expr) : Prop where
  shape : ∀ i, Shape B (fun _ => False) (O.coeff e i)
  free : ∀ i, Ignores I (fun t => t = n) (O.coeff e i)
  sum : ∃ D, (∀ (X : K → K) (σ : String → K) (N : ℕ), start ≤ N → Agrees n (Unknown O) ρ σ N →
    eval (withX I X) σ e = ∑ i ∈ Finset.range (D + 1), eval (withX I X) σ (O.coeff e i) * (N : K) ^ i) ∧
    ∀ i, D < i → ∀ (X : K → K) (σ : String → K), eval (withX I X) σ (O.coeff e i) = 0

/-! ### Auxiliary lemmas -/

theorem shape_idx {B : String → Prop} {S : ℚ → Prop} {n : String} (hn : ¬ B n) {e : Expr} (h : Shape B S e) : idxNe n e = true := by
  induction e using Expr.ind with
  | num q => simp [idxNe]
  | const q => simp [idxNe]
  | sym s => simp [idxNe]
  | add l ih => simp only [Shape] at h; simp [idxNe]; exact fun a ha => ih a ha (h a ha)
  | mul l ih => simp only [Shape] at h; simp [idxNe]; exact fun a ha => ih a ha (h a ha)
  | pow b e hb he => simp only [Shape] at h; simp [idxNe, hb h.1, he h.2]
  | fn f l ih => rw [Shape] at h; simp [idxNe]; exact fun a ha => ih a ha (h.2 a ha)
  | binder k i a b c hi ha hb hc =>
    simp only [Shape] at h
    obtain ⟨⟨t, rfl, ht⟩, h1, h2, h3⟩ := h
    have : t ≠ n := fun e => hn (e ▸ ht)
    simp [idxNe, this, ha h1, hb h2, hc h3]

theorem Agrees.unknown {n : String} {U : String → Prop} {ρ σ τ : String → K} {N : ℕ} (h : Agrees n U ρ σ N) (hn : ¬ U n)
    (hτ : ∀ t, ¬ U t → τ t = σ t) : Agrees n U ρ τ N :=
  ⟨by rw [hτ n hn, h.1], fun t h1 h2 => by rw [hτ t h2, h.2 t h1 h2]⟩

theorem agrees_self (n : String) (U : String → Prop) (ρ : String → K) (N : ℕ) : Agrees n U ρ (update ρ n N) N :=
  ⟨by simp, fun t h _ => by simp [h]⟩

theorem Agrees.update {n : String} {U : String → Prop} {ρ σ : String → K} {N : ℕ} (h : Agrees n U ρ σ N) (M : ℕ) :
    Agrees n U ρ (Function.update σ n (M : K)) M :=
  ⟨by simp, fun t h1 h2 => by rw [update_of_ne h1]; exact h.2 t h1 h2⟩

/-- The unknowns are replaced one after the other. -/
theorem backSub_val {J : Interp K} {B : String → Prop} {S : ℚ → Prop} {u : ℕ → String} {vals : List Expr} (hB : ∀ i, ¬ B (u i))
    (hv : ∀ i < vals.length, Shape B S (vals.getD i (.num 0))) (hib : ∀ i < vals.length, Indep J B (vals.getD i (.num 0)))
    (hi : ∀ i j, i < vals.length → j < vals.length → i ≠ j → ∀ (σ : String → K) w,
      eval J (update σ (u i) w) (vals.getD j (.num 0)) = eval J σ (vals.getD j (.num 0))) :
    ∀ (l : List ℕ), l.Nodup → (∀ i ∈ l, i < vals.length) → ∀ {e : Expr}, Shape B S e →
      Shape B S (l.foldr (fun i e => substitute (.sym (u i)) (vals.getD i (.num 0)) e) e) ∧
      ∀ σ : String → K, eval J σ (l.foldr (fun i e => substitute (.sym (u i)) (vals.getD i (.num 0)) e) e)
        = eval J (l.foldl (fun τ i => update τ (u i) (eval J σ (vals.getD i (.num 0)))) σ) e := by
  intro l
  induction l with
  | nil => intro _ _ e he; exact ⟨he, fun ρ => rfl⟩
  | cons i l ih =>
    intro hnd hl e he
    rw [List.nodup_cons] at hnd
    obtain ⟨h1, h2⟩ := ih hnd.2 (fun j hj => hl j (by simp [hj])) he
    have hil := hl i (by simp)
    constructor
    · exact shape_substitute (hv i hil) (by simp) (by intro t ht h; cases h; exact hB i ht) (fun q hq _ => hq) h1
    · intro σ
      rw [List.foldr_cons, subst_sym (hB i) (hib i hil) h1, h2, List.foldl_cons]
      congr 1
      refine List.foldl_ext _ _ _ fun τ j hj => ?_
      rw [hi i j hil (hl j (by simp [hj])) (by rintro rfl; exact hnd.1 hj)]

/-- The valuation in which the unknowns have given values. -/
noncomputable def setUnknowns (u : ℕ → String) (m : ℕ) (w : ℕ → K) (σ : String → K) : String → K :=
  (List.range m).foldl (fun τ i => update τ (u i) (w i)) σ

theorem setUnknowns_spec {u : ℕ → String} (hu : ∀ i j, u i = u j → i = j) (m : ℕ) (w : ℕ → K) (σ : String → K) :
    (∀ t, (∀ i < m, t ≠ u i) → setUnknowns u m w σ t = σ t) ∧ ∀ i < m, setUnknowns u m w σ (u i) = w i :=
  OnIC.foldl_update (O := ⟨fun _ _ => none, u, id, id⟩) hu w m σ

theorem eval_backSub {J : Interp K} {B : String → Prop} {S : ℚ → Prop} {u : ℕ → String} {vals : List Expr} (hB : ∀ i, ¬ B (u i))
    (hv : ∀ i < vals.length, Shape B S (vals.getD i (.num 0))) (hib : ∀ i < vals.length, Indep J B (vals.getD i (.num 0)))
    (hi : ∀ i j, i < vals.length → j < vals.length → i ≠ j → ∀ (σ : String → K) w,
      eval J (update σ (u i) w) (vals.getD j (.num 0)) = eval J σ (vals.getD j (.num 0))) {e : Expr} (he : Shape B S e) :
    Shape B S (backSub u vals e) ∧ ∀ σ : String → K, eval J σ (backSub u vals e)
      = eval J (setUnknowns u vals.length (fun i => eval J σ (vals.getD i (.num 0))) σ) e :=
  backSub_val hB hv hib hi _ List.nodup_range (fun i hi => by simpa using hi) he

/-- The generic polynomial. -/
theorem eval_genericPoly (J : Interp K) (n : String) (u : ℕ → String) (deg : ℕ) (σ : String → K) :
    eval J σ (genericPoly n u deg) = (specialPoly (fun i => σ (u i)) deg).eval (σ n) := by
  have h : ∀ (m : ℕ), eval J σ ((List.range m).foldl (fun q (i : ℕ) => addE q (mulE (powE (.sym n) (.num i)) (.sym (u i)))) (.num 0))
      = ∑ i ∈ Finset.range m, σ n ^ i * σ (u i) := by
    intro m
    induction m with
    | zero => simp [eval]
    | succ m ih =>
      rw [List.range_succ, List.foldl_append, Finset.sum_range_succ, ← ih]
      simp only [List.foldl_cons, List.foldl_nil, eval_addE, eval_mulE, eval_powE, eval, Rat.cast_natCast, pw_nat]
  rw [genericPoly, h, specialPoly, eval_finsetSum]
  refine Finset.sum_congr rfl fun i _ => ?_
  rw [Polynomial.eval_mul, Polynomial.eval_pow, Polynomial.eval_X, Polynomial.eval_C]

theorem shape_genericPoly {B : String → Prop} {S : ℚ → Prop} (n : String) (u : ℕ → String) (deg : ℕ) : Shape B S (genericPoly n u deg) := by
  have h : ∀ (l : List ℕ) (e : Expr), Shape B S e →
      Shape B S (l.foldl (fun q (i : ℕ) => addE q (mulE (powE (.sym n) (.num i)) (.sym (u i)))) e) := by
    intro l
    induction l with
    | nil => intro e he; exact he
    | cons i l ih =>
      intro e he
      exact ih _ (shape_addE he (shape_mulE (shape_powE (by simp [Shape]) (by simp [Shape])) (by simp [Shape])))
  exact h _ _ (by simp [Shape])

theorem shape_ansatz {B : String → Prop} {S : ℚ → Prop} (n : String) (u : ℕ → String) (deg : ℕ) {base : Expr} (hb : Shape B S base) :
    Shape B S (ansatz n u deg base) := shape_mulE (shape_genericPoly n u deg) (shape_powE hb (by simp [Shape]))

theorem eval_ansatz {n : String} {U : String → Prop} {ρ : String → K} {f : ℕ} {base : Expr} {b : K}
    (hb : Denotes I n U ρ f base fun _ => b) (u : ℕ → String) (deg : ℕ) (X : K → K) {σ : String → K} {N : ℕ} (hN : f ≤ N)
    (hσ : Agrees n U ρ σ N) :
    eval (withX I X) σ (ansatz n u deg base) = (specialPoly (fun i => σ (u i)) deg).eval (N : K) * b ^ N := by
  rw [ansatz, eval_mulE, eval_genericPoly, eval_powE, hb X σ N hN hσ, hσ.1]
  simp only [eval, hσ.1]
  rw [pw_nat]

theorem subst_loop_eq (n : String) (s : ℕ → Expr) (R : Verify.Rec) (hR : R.n = n) : ∀ (ds : List ℕ) (e : Expr),
    ds.foldl (fun diff d => subX (xDec n d) (s d) diff) e = substLoop R s ds e := by
  intro ds
  subst hR
  induction ds with
  | nil => intro e; rfl
  | cons d ds ih =>
    intro e
    rw [substLoop, List.foldl_cons, List.foldl_cons, ih]
    by_cases h : has (xDec R.n d) e = true
    · rw [if_pos h]; rfl
    · rw [if_neg h, Verify.subX_keep (by simpa using h)]; rfl

theorem shiftN_zero (n : String) : shiftN n (-((0 : ℕ) : ℚ)) = .sym n := by
  simp [shiftN, addE]

section
variable {O : Ops} {n : String} {B : String → Prop} {ρ : String → K} {f k : ℕ}

theorem OpsOk.unk {I : Interp K} (hO : OpsOk I O n B ρ f k) : ¬ Unknown O n := by
  rintro ⟨j, i, h⟩
  exact hO.ne j i h.symm

/-- `diff` is the value of the difference for the coefficients that the unknowns have. -/
theorem eval_diffE (hO : OpsOk I O n B ρ f k) {a p : ℕ → K} {rhs inhom : Expr} (hR : RecIs I O n B ρ f k rhs inhom a p)
    {t : Expr × Expr × Expr} {b : K} {P : K[X]} (ht : TermIs I O n B ρ f t b P) (u : ℕ → String) (hu : ∀ i, u i ≠ n) (deg : ℕ) (X : K → K)
    {σ : String → K} {N : ℕ} (hN : f + k ≤ N) (hσ : Agrees n (Unknown O) ρ σ N) :
    eval (withX I X) σ (diffE O n (O.auto (subE rhs inhom)) k t.2.1 t.1 (ansatz n u deg t.1))
      = (specialDiff a k P b (specialPoly (fun i => σ (u i)) deg)).eval (N : K) := by
  set q := ansatz n u deg t.1 with hq
  have hqs : Shape B (fun _ => False) q := shape_ansatz n u deg ht.shapeB
  have hqx : hasX q = false := shape_hasX hqs
  have hqi : idxNe n q = true := shape_idx hO.nB hqs
  have hbx := shape_hasX ht.shapeB
  have hbi := shape_idx hO.nB ht.shapeB
  have hpx := shape_hasX ht.shapeP
  have hpi := shape_idx hO.nB ht.shapeP
  let R : Verify.Rec := ⟨n, rhs, inhom, k, f, 1, [], true, true, 0, false, 0, none, none⟩
  set s : ℕ → Expr := fun d => substitute (.sym n) (shiftN n (-(d : ℚ))) q with hs
  set init : Expr := subE (subE (.fn .x [.sym n]) (O.auto (subE rhs inhom))) (mulE t.2.1 (powE t.1 (.sym n))) with hinit
  have hout : xOut n (List.range (k + 1)) init = true := by
    have hsub : ∀ {ds : List ℕ} {x y : Expr}, xOut n ds x = true → xOut n ds y = true → xOut n ds (subE x y) = true :=
      fun hx hy => Verify.xOut_addE hx (Verify.xOut_mulE (by simp [xOut]) hy)
    refine hsub (hsub ?_ (Verify.xOut_perm ?_ hR.out)) (Verify.xOut_of_noX ?_ ?_)
    · have : shiftN n (-(((0 : ℕ) : ℕ) : ℚ)) = .sym n := shiftN_zero n
      simp only [xOut, if_pos]
      rw [List.any_eq_true]
      exact ⟨0, by simp, by rw [this]; simp⟩
    · intro d hd
      rw [List.mem_range'_1] at hd
      rw [List.mem_range]
      omega
    · exact WeightedAvg.hasX_mulE hpx (WeightedAvg.hasX_powE hbx (by simp [hasX]))
    · exact idxNe_mulE hpi (idxNe_powE hbi (by simp [idxNe]))
  have hsx : ∀ d, hasX (s d) = false := fun d => hasX_substN (hasX_shiftN _ _) hqx
  have hsi : ∀ d, idxNe n (s d) = true := fun d => idxNe_substN (idxNe_shiftN _ _) hqi
  obtain ⟨⟨l1, l2⟩, l3⟩ := Verify.substLoop_spec I R s hsx hsi (List.range (k + 1)) init hout
  have hsubst : substituted n (O.auto (subE rhs inhom)) k t.2.1 t.1 q = substLoop R s (List.range (k + 1)) init :=
    subst_loop_eq n s R rfl _ _
  set w := mulE (substituted n (O.auto (subE rhs inhom)) k t.2.1 t.1 q) (powE t.1 (negE (.sym n))) with hw
  have hwx : hasX w = false := by
    rw [hw, hsubst]
    exact WeightedAvg.hasX_mulE l1 (WeightedAvg.hasX_powE hbx (WeightedAvg.hasX_mulE (by simp [hasX]) (by simp [hasX])))
  have hwi : idxNe n w = true := by
    rw [hw, hsubst]
    exact idxNe_mulE l2 (idxNe_powE hbi (idxNe_mulE (by simp [idxNe]) (by simp [idxNe])))
  have hNf : f ≤ N := by omega
  have e1 : eval (withX I X) σ (diffE O n (O.auto (subE rhs inhom)) k t.2.1 t.1 q) = eval (withX I X) σ w := by
    rw [diffE, hO.expand.val _ (hO.simp.noX _ (hO.expand.noX _ hwx hwi) (hO.expand.idx _ hwx hwi))
      (hO.simp.idx _ (hO.expand.noX _ hwx hwi) (hO.expand.idx _ hwx hwi)) X σ N hNf hσ,
      hO.simp.val _ (hO.expand.noX _ hwx hwi) (hO.expand.idx _ hwx hwi) X σ N hNf hσ, hO.expand.val _ hwx hwi X σ N hNf hσ]
  -- the expected solution as a sequence
  let Y : K → K := fun v => eval (withX I fun _ => 0) (update σ n v) q
  have hY : ∀ M : ℕ, f ≤ M → Y M = (specialPoly (fun i => σ (u i)) deg).eval (M : K) * b ^ M := by
    intro M hM
    show eval _ _ q = _
    rw [hq, eval_ansatz ht.base u deg _ hM (hσ.update M)]
    have : (fun i => update σ n (M : K) (u i)) = fun i => σ (u i) := funext fun i => update_of_ne (hu i) _ _
    rw [this]
  have e2 : eval (withX I X) σ (substituted n (O.auto (subE rhs inhom)) k t.2.1 t.1 q) = eval (withX I Y) σ init := by
    rw [hsubst, eval_noX I X Y _ l1, l3 Y σ]
    intro d _
    have hself : σ = update σ n (σ n) := (Function.update_eq_self n σ).symm
    have : eval (withX I Y) σ (s d) = eval (withX I Y) (update σ n (σ n - d)) q := by
      conv_lhs => rw [hself]
      rw [hs]
      simp only
      rw [eval_subst_shift _ hqi]
      congr 2
      push_cast
      ring
    rw [this, eval_noX I Y (fun _ => 0) _ hqx]
  have hb0 : b ^ N ≠ 0 := pow_ne_zero _ ht.ne
  have e3 : eval (withX I Y) σ init = (specialPoly (fun i => σ (u i)) deg).eval (N : K) * b ^ N
      - (∑ i ∈ Finset.range k, a (i + 1) * ((specialPoly (fun i => σ (u i)) deg).eval ((N - (i + 1) : ℕ) : K) * b ^ (N - (i + 1))))
      - P.eval (N : K) * b ^ N := by
    rw [hinit, eval_subE, eval_subE, eval_x, hR.auto Y σ N hN hσ, eval_subE, hR.lin Y σ N hN hσ, hR.inhomVal Y σ N hNf hσ, eval_mulE, eval_powE,
      ht.poly Y σ N hNf hσ, ht.base Y σ N hNf hσ]
    simp only [eval, hσ.1]
    rw [pw_nat, hY N hNf, add_sub_cancel_right]
    congr 2
    refine Finset.sum_congr rfl fun i hi => ?_
    rw [Finset.mem_range] at hi
    rw [hY (N - (i + 1)) (by omega)]
  have e4 : eval (withX I X) σ (powE t.1 (negE (.sym n))) = (b ^ N)⁻¹ := by
    rw [eval_powE, eval_negE, ht.base X σ N hNf hσ]
    simp only [eval, hσ.1]
    rw [show (-(N : K)) = ((-(N : ℤ) : ℤ) : K) by push_cast; ring, (withX I X).pw_int, zpow_neg, zpow_natCast]
  rw [e1, hw, eval_mulE, e2, e3, e4]
  unfold specialDiff
  rw [eval_sub, eval_sub, eval_finsetSum, sub_mul, sub_mul, mul_assoc, mul_inv_cancel₀ hb0, mul_one, mul_assoc (P.eval _), mul_inv_cancel₀ hb0, mul_one,
    Finset.sum_mul]
  congr 2
  refine Finset.sum_congr rfl fun i hi => ?_
  rw [Finset.mem_range] at hi
  rw [eval_mul, eval_C, eval_comp, eval_sub, eval_X, eval_C]
  have e5 : b ^ (N - (i + 1)) * (b ^ N)⁻¹ = b ^ (-((i : ℤ) + 1)) := by
    rw [← zpow_natCast, ← zpow_natCast, ← zpow_neg, ← zpow_add₀ ht.ne]
    congr 1
    rw [Nat.cast_sub (by omega)]
    push_cast
    ring
  rw [← e5, Nat.cast_sub (by omega)]
  push_cast
  ring

theorem determined_length (u : ℕ → String) (sol : List Expr) : (determined u sol).length = sol.length := by simp [determined]

theorem determined_getD (u : ℕ → String) (sol : List Expr) {i : ℕ} (hi : i < sol.length) :
    (determined u sol).getD i (.num 0) = if sol.getD i (.num 0) ≠ .sym (u i) then sol.getD i (.num 0) else .num 0 := by
  rw [List.getD_eq_getElem _ _ (by rw [determined_length]; exact hi), List.getD_eq_getElem _ _ hi]
  simp [determined]

theorem Ignores.indep {V : String → Prop} {e : Expr} (h : Ignores I V e) {t : String} (ht : V t) (X : K → K) (σ : String → K) (w : K) :
    eval (withX I X) (update σ t w) e = eval (withX I X) σ e :=
  h X _ _ fun t' ht' => update_of_ne (by rintro rfl; exact ht' ht) _ _

/-- The equations for the coefficients of the special solution hold if and only if the values of the unknowns solve the equations of the value level. -/
theorem system_iff (hO : OpsOk I O n B ρ f k) {a p : ℕ → K} {rhs inhom : Expr} (hR : RecIs I O n B ρ f k rhs inhom a p)
    {t : Expr × Expr × Expr} {b : K} {P : K[X]} (ht : TermIs I O n B ρ f t b P) (j mult : ℕ)
    (hrec : Recognised I O n B ρ (f + k) (diffE O n (O.auto (subE rhs inhom)) k t.2.1 t.1 (ansatz n (O.unknown j) (O.degree t.2.1 + mult) t.1)))
    (X : K → K) {σ : String → K} (hσ : Same n (Unknown O) ρ σ) :
    Sat I X σ (specialSystem O (O.degree t.2.1 + mult)
      (diffE O n (O.auto (subE rhs inhom)) k t.2.1 t.1 (ansatz n (O.unknown j) (O.degree t.2.1 + mult) t.1))) ↔
    SpecialSolved (⟨k, a, fun _ => 0, f⟩ : LinRec K) P b mult fun i => σ (O.unknown j i) := by
  set u := O.unknown j with hu
  set deg := O.degree t.2.1 + mult with hdeg
  set diff := diffE O n (O.auto (subE rhs inhom)) k t.2.1 t.1 (ansatz n u deg t.1) with hdiff
  set γ : ℕ → K := fun i => eval (withX I X) σ (O.coeff diff i) with hγ
  obtain ⟨Dg, hDg, hD0⟩ := hrec.sum
  have hτ : ∀ N : ℕ, Agrees n (Unknown O) ρ (update σ n (N : K)) N := fun N => ⟨by simp, fun t h1 h2 => by rw [update_of_ne h1, hσ t h1 h2]⟩
  have hγv : ∀ (N i : ℕ), eval (withX I X) (update σ n (N : K)) (O.coeff diff i) = γ i :=
    fun N i => hrec.free i _ _ _ fun t ht => update_of_ne ht _ _
  have hid : specialDiff a k P b (specialPoly (fun i => σ (u i)) deg) = ∑ i ∈ Finset.range (Dg + 1), Polynomial.C (γ i) * Polynomial.X ^ i := by
    refine Polynomial.eq_of_infinite_eval_eq _ _ ?_
    have hinf : (Set.range fun m : ℕ => ((f + k + m : ℕ) : K)).Infinite := by
      refine Set.infinite_range_of_injective fun x y hxy => ?_
      have : f + k + x = f + k + y := by exact_mod_cast hxy
      omega
    refine hinf.mono ?_
    rintro _ ⟨m, rfl⟩
    show _ = _
    have e1 := eval_diffE hO hR ht u (hO.ne j) deg X (N := f + k + m) (by omega) (hτ _)
    have e0 : (fun i => update σ n ((f + k + m : ℕ) : K) (u i)) = fun i => σ (u i) := funext fun i => update_of_ne (hO.ne j i) _ _
    rw [e0] at e1
    rw [← e1, hDg _ _ _ (by omega) (hτ _), eval_finsetSum]
    refine Finset.sum_congr rfl fun i _ => ?_
    rw [eval_mul, eval_C, eval_pow, eval_X, hγv]
  have hco : ∀ i, (specialDiff a k P b (specialPoly (fun i => σ (u i)) deg)).coeff i = γ i := by
    intro i
    rw [hid, Polynomial.finsetSum_coeff]
    have : ∀ i' ∈ Finset.range (Dg + 1), (Polynomial.C (γ i') * Polynomial.X ^ i' : K[X]).coeff i = if i = i' then γ i' else 0 :=
      fun i' _ => Polynomial.coeff_C_mul_X_pow _ _ _
    rw [Finset.sum_congr rfl this, Finset.sum_ite_eq]
    split
    · rfl
    · next h => exact (hD0 i (by rw [Finset.mem_range] at h; omega) X σ).symm
  have hd : P.natDegree + mult = deg := by rw [hdeg, ht.degree]
  constructor
  · intro h i hi
    show (specialDiff a k P b (specialPoly (fun i => σ (u i)) (P.natDegree + mult))).coeff i = 0
    rw [hd, hco]
    have hi' : i < deg + 1 := by rw [← hd]; exact hi
    have := h (O.coeff diff i, .num 0) (by rw [specialSystem, List.mem_reverse, List.mem_map]; exact ⟨i, by simpa using hi', rfl⟩)
    simpa [eval] using this
  · intro h p hp
    rw [specialSystem, List.mem_reverse, List.mem_map] at hp
    obtain ⟨i, hi, rfl⟩ := hp
    rw [List.mem_range] at hi
    have e : (specialDiff a k P b (specialPoly (fun i => σ (u i)) (P.natDegree + mult))).coeff i = 0 := h i (by show i < P.natDegree + mult + 1; omega)
    rw [hd, hco] at e
    simpa [eval] using e

theorem update_unknown (hO : OpsOk I O n B ρ f k) (j i : ℕ) (w : K) (σ : String → K) :
    (fun i' => update σ (O.unknown j i) w (O.unknown j i')) = update (fun i' => σ (O.unknown j i')) i w := by
  funext i'
  by_cases h : i' = i
  · subst h; simp
  · rw [update_of_ne fun e => h (hO.inj j _ _ e), update_of_ne h]

theorem Same.update {σ : String → K} (h : Same n (Unknown O) ρ σ) (j i : ℕ) (w : K) :
    Same n (Unknown O) ρ (Function.update σ (O.unknown j i) w) := by
  intro t h1 h2
  rw [update_of_ne (by rintro rfl; exact h2 ⟨j, i, rfl⟩)]
  exact h t h1 h2

/-- In the system for the coefficients every unknown is determined or arbitrary: the first ones, as many as the multiplicity, are arbitrary. -/
theorem special_separate [DecidableEq K] (hO : OpsOk I O n B ρ f k) {a p : ℕ → K} {rhs inhom : Expr} (hR : RecIs I O n B ρ f k rhs inhom a p)
    {t : Expr × Expr × Expr} {b : K} {P : K[X]} (ht : TermIs I O n B ρ f t b P) {rs : List (K × ℕ)}
    (hr : AreRoots (⟨k, a, fun _ => 0, f⟩ : LinRec K) rs) (hnd : (rs.map Prod.fst).Nodup) (j : ℕ) {mult : ℕ} (hmult : mult = baseMult rs b)
    (hrec : Recognised I O n B ρ (f + k) (diffE O n (O.auto (subE rhs inhom)) k t.2.1 t.1 (ansatz n (O.unknown j) (O.degree t.2.1 + mult) t.1))) :
    Separate I n (Unknown O) ρ (specialSystem O (O.degree t.2.1 + mult)
      (diffE O n (O.auto (subE rhs inhom)) k t.2.1 t.1 (ansatz n (O.unknown j) (O.degree t.2.1 + mult) t.1))) (O.degree t.2.1 + mult + 1)
      (O.unknown j) := by
  have hiff := fun (X : K → K) {σ : String → K} (hσ : Same n (Unknown O) ρ σ) => system_iff hO hR ht j mult hrec X hσ
  have hfree := fun {c : ℕ → K} (hc : SpecialSolved (⟨k, a, fun _ => 0, f⟩ : LinRec K) P b mult c) (c' : ℕ → K) =>
    hmult ▸ C147_undetermined_coefficients (⟨k, a, fun _ => 0, f⟩ : LinRec K) rs hr hnd P b ht.ne (hmult ▸ hc) c'
  intro i hi
  by_cases him : mult ≤ i
  · refine .inl fun X σ τ hσ hτ h1 h2 => ?_
    have h1 := (hiff X hσ).mp h1
    have h2 := (hiff X hτ).mp h2
    exact ((hfree h2 _).mp h1) i him (by rw [← ht.degree]; omega)
  · refine .inr fun X σ w hσ h1 => ?_
    have h1 := (hiff X hσ).mp h1
    rw [hiff X (hσ.update j i w), update_unknown hO]
    exact (hfree h1 _).mpr fun i' h2 _ => update_of_ne (by omega) _ _

/-- **The special solution.**  The result is an expression whose values satisfy the recurrence with the term as inhomogeneous part. -/
theorem special_spec [DecidableEq K] (hO : OpsOk I O n B ρ f k) (hk : 1 ≤ k) {a p : ℕ → K} {rhs inhom : Expr} (hR : RecIs I O n B ρ f k rhs inhom a p)
    {t : Expr × Expr × Expr} {b : K} {P : K[X]} (ht : TermIs I O n B ρ f t b P) {rs : List (K × ℕ)}
    (hr : AreRoots (⟨k, a, fun _ => 0, f⟩ : LinRec K) rs) (hnd : (rs.map Prod.fst).Nodup) (j : ℕ) {mult : ℕ} (hmult : mult = baseMult rs b)
    (hrec : ¬ (t.1 = .num 1 ∧ O.auto (subE rhs inhom) = xDec n 1) → Recognised I O n B ρ (f + k) (diffE O n (O.auto (subE rhs inhom)) k t.2.1 t.1 (ansatz n (O.unknown j) (O.degree t.2.1 + mult) t.1)))
    (hls : ¬ (t.1 = .num 1 ∧ O.auto (subE rhs inhom) = xDec n 1) → (O.lsolve (specialSystem O (O.degree t.2.1 + mult)
      (diffE O n (O.auto (subE rhs inhom)) k t.2.1 t.1 (ansatz n (O.unknown j) (O.degree t.2.1 + mult) t.1)))
      ((List.range (O.degree t.2.1 + mult + 1)).map (O.unknown j))).isSome = true)
    (hsum : t.1 = .num 1 → O.auto (subE rhs inhom) = xDec n 1 → Shape B (fun _ => False) (O.sumPoly t.2.1) ∧
      Denotes I n (Unknown O) ρ f (O.sumPoly t.2.1) fun N => ∑ i ∈ Finset.range (N + 1), P.eval (i : K))
    {s : Expr} (h : special O n (O.unknown j) (O.auto (subE rhs inhom)) k t.2.1 t.1 mult = some s) :
    Shape B (fun _ => False) s ∧ ∃ s' : ℕ → K, Denotes I n (Unknown O) ρ f s s' ∧
      ∀ N, f + k ≤ N → s' N = (∑ i ∈ Finset.range k, a (i + 1) * s' (N - (i + 1))) + P.eval (N : K) * b ^ N := by
  unfold special at h
  by_cases hfast : t.1 = .num 1 ∧ O.auto (subE rhs inhom) = xDec n 1
  · rw [if_pos hfast, Option.some.injEq] at h
    subst h
    obtain ⟨h1, h2⟩ := hsum hfast.1 hfast.2
    have hb1 : b = 1 := by
      have := ht.base (fun _ => 0) (update ρ n (f : K)) f le_rfl (agrees_self n _ ρ f)
      rw [hfast.1] at this
      simpa [eval] using this.symm
    refine ⟨h1, _, h2, fun N hN => ?_⟩
    set s' : ℕ → K := fun N => ∑ i ∈ Finset.range (N + 1), P.eval (i : K) with hs'
    set X : K → K := Function.extend Nat.cast s' 0 with hX
    have hXn : ∀ m : ℕ, X m = s' m := fun m => by rw [hX, Nat.cast_injective.extend_apply]
    have hag := agrees_self n (Unknown O) ρ N
    have e1 := hR.auto X _ N hN hag
    rw [hfast.2, eval_subE, hR.lin X _ N hN hag, hR.inhomVal X _ N (by omega) hag, add_sub_cancel_right, xDec, eval_x, WeightedAvg.eval_shiftN] at e1
    have e2 : (update ρ n (N : K) n + ((-((1 : ℕ) : ℚ) : ℚ) : K)) = ((N - 1 : ℕ) : K) := by
      rw [update_self, Nat.cast_sub (by omega)]; push_cast; ring
    rw [e2] at e1
    simp only [hXn] at e1
    rw [← e1, hb1, one_pow, mul_one]
    show ∑ i ∈ Finset.range (N + 1), P.eval (i : K) = (∑ i ∈ Finset.range (N - 1 + 1), P.eval (i : K)) + _
    rw [Nat.sub_add_cancel (by omega), Finset.sum_range_succ]
  rw [if_neg hfast] at h
  replace hrec := hrec hfast
  replace hls := hls hfast
  obtain ⟨sol, hsol⟩ := Option.isSome_iff_exists.mp hls
  dsimp only at h
  rw [hsol] at h
  dsimp only at h
  by_cases hrem : removed (O.unknown j) sol = mult
  swap
  · rw [if_neg hrem] at h; cases h
  rw [if_pos hrem, Option.some.injEq] at h
  subst h
  set u := O.unknown j with hu
  set deg := O.degree t.2.1 + mult with hdeg
  set q := ansatz n u deg t.1 with hq
  set diff := diffE O n (O.auto (subE rhs inhom)) k t.2.1 t.1 q with hdiff
  have hsolution : Solution I n B (Unknown O) ρ (fun _ => False) (specialSystem O deg diff) (deg + 1) u sol := by
    refine hO.lsolve _ _ _ j _ (.inl rfl) hsol ?_ (special_separate hO hR ht hr hnd j hmult hrec)
    intro p hp
    rw [specialSystem, List.mem_reverse, List.mem_map] at hp
    obtain ⟨i, -, rfl⟩ := hp
    exact ⟨hrec.shape i, by simp [Shape], hrec.free i, fun X σ τ _ => by simp [eval]⟩
  have hlen := hsolution.len
  set D : ℕ → Expr := fun i => (determined u sol).getD i (.num 0) with hD
  have hDi : ∀ i < deg + 1, Shape B (fun _ => False) (D i) ∧ Ignores I (fun t => B t ∨ t = n ∨ Unknown O t) (D i) ∧
      (sol.getD i (.num 0) = .sym (u i) ∨ sol.getD i (.num 0) = D i) := by
    intro i hi
    have e := determined_getD u sol (i := i) (by omega)
    by_cases hs : sol.getD i (.num 0) = .sym (u i)
    · rw [if_neg (not_not.mpr hs)] at e
      show Shape B _ ((determined u sol).getD i (.num 0)) ∧ Ignores I _ ((determined u sol).getD i (.num 0)) ∧ _
      rw [e]
      exact ⟨by simp [Shape], fun X σ τ _ => by simp [eval], .inl hs⟩
    · rw [if_pos hs] at e
      rcases hsolution.each i hi with h | h
      · exact absurd h hs
      · show Shape B _ ((determined u sol).getD i (.num 0)) ∧ Ignores I _ ((determined u sol).getD i (.num 0)) ∧
          (_ ∨ _ = (determined u sol).getD i (.num 0))
        rw [e]
        exact ⟨h.1, h.2, .inr rfl⟩
  have hdl : (determined u sol).length = deg + 1 := by rw [determined_length, hlen]
  set c : ℕ → K := fun i => eval (withX I fun _ => 0) ρ (D i) with hc
  have hcv : ∀ i < deg + 1, ∀ (X : K → K) (σ : String → K), (∀ t, t ≠ n → ¬ Unknown O t → σ t = ρ t) → eval (withX I X) σ (D i) = c i := by
    intro i hi X σ hσ
    rw [eval_noX I X (fun _ => 0) _ (shape_hasX (hDi i hi).1)]
    refine (hDi i hi).2.1 _ _ _ fun t ht => ?_
    push Not at ht
    exact hσ t ht.2.1 ht.2.2
  have hinj : ∀ i i', u i = u i' → i = i' := hO.inj j
  have hqs : Shape B (fun _ => False) q := shape_ansatz n u deg ht.shapeB
  have hback := fun X : K → K => eval_backSub (J := withX I X) (B := B) (S := fun _ => False) (u := u) (vals := determined u sol) (e := q)
    (fun i => hO.notB j i) (fun i hi => (hDi i (by omega)).1)
    (fun i hi σ t v ht => (hDi i (by omega)).2.1.indep (V := fun t => B t ∨ t = n ∨ Unknown O t) (.inl ht) X σ v)
    (fun i i' _ hi' _ σ w => (hDi i' (by omega)).2.1.indep (V := fun t => B t ∨ t = n ∨ Unknown O t) (.inr (.inr ⟨j, i, rfl⟩)) X σ w) hqs
  have hset : ∀ (w : ℕ → K) (σ : String → K) (N : ℕ), Agrees n (Unknown O) ρ σ N → Agrees n (Unknown O) ρ (setUnknowns u (deg + 1) w σ) N := by
    intro w σ N hσ
    exact hσ.unknown hO.unk fun t ht => (setUnknowns_spec hinj (deg + 1) w σ).1 t fun i _ e => ht ⟨j, i, e⟩
  have hpoly : ∀ (w : ℕ → K) (σ : String → K), (∀ i < deg + 1, w i = c i) →
      specialPoly (fun i => setUnknowns u (deg + 1) w σ (u i)) deg = specialPoly c deg := by
    intro w σ hw
    unfold specialPoly
    refine Finset.sum_congr rfl fun i hi => ?_
    dsimp only
    rw [(setUnknowns_spec hinj (deg + 1) w σ).2 i (by simpa using hi), hw i (by simpa using hi)]
  refine ⟨(hback fun _ => 0).1, fun N => (specialPoly c deg).eval (N : K) * b ^ N, ?_, ?_⟩
  · intro X σ N hN hσ
    rw [(hback X).2 σ, hdl, hq, eval_ansatz ht.base u deg X hN (hset _ σ N hσ), hpoly _ _ fun i hi => hcv i hi X σ hσ.2]
  -- the equations
  have hsame : Same n (Unknown O) ρ (setUnknowns u (deg + 1) c ρ) :=
    fun t _ h2 => (setUnknowns_spec hinj (deg + 1) c ρ).1 t fun i _ e => h2 ⟨j, i, e⟩
  have hsat := hsolution.sat (fun _ => 0) _ hsame fun i hi => by
    rcases (hDi i hi).2.2 with h | h
    · exact .inl h
    · refine .inr ?_
      rw [h, hcv i hi _ _ hsame]
      exact (setUnknowns_spec hinj (deg + 1) c _).2 i hi
  have hsolved : SpecialSolved (⟨k, a, fun _ => 0, f⟩ : LinRec K) P b mult c := by
    have := (system_iff hO hR ht j mult hrec _ hsame).mp hsat
    rw [specialSolved_iff] at this ⊢
    rw [← ht.degree] at this ⊢
    rwa [hpoly c ρ fun _ _ => rfl] at this
  intro N hN
  have := special_everywhere (⟨k, a, fun _ => 0, f⟩ : LinRec K) P b mult c ht.ne hsolved N
  unfold specialSolution at this
  rw [← ht.degree] at this
  simp only [zpow_natCast, Int.cast_natCast] at this
  refine this.trans ?_
  congr 1
  refine Finset.sum_congr rfl fun i hi => ?_
  rw [Finset.mem_range] at hi
  rw [show ((N : ℤ) - ((i : ℤ) + 1)) = ((N - (i + 1) : ℕ) : ℤ) by rw [Nat.cast_sub (by omega)]; push_cast; ring, zpow_natCast, Int.cast_natCast]

/-- What is assumed of one term of the decomposition: the system for its coefficients is recognised and solved; if the sum of the polynomial is
used instead, `sum_poly_alt` returns the sum (C11). -/
structure TermSolved (I : Interp K) (O : Ops) (n : String) (B : String → Prop) (ρ : String → K) (f k : ℕ) (homo : Expr) (mult : ℕ)
    (t : Expr × Expr × Expr) (P : K[X]) : Prop where
  sum : t.1 = .num 1 → homo = xDec n 1 → Shape B (fun _ => False) (O.sumPoly t.2.1) ∧
    Denotes I n (Unknown O) ρ f (O.sumPoly t.2.1) fun N => ∑ i ∈ Finset.range (N + 1), P.eval (i : K)
  recognised : ¬ (t.1 = .num 1 ∧ homo = xDec n 1) → ∀ j, Recognised I O n B ρ (f + k) (diffE O n homo k t.2.1 t.1 (ansatz n (O.unknown j) (O.degree t.2.1 + mult) t.1))
  solved : ¬ (t.1 = .num 1 ∧ homo = xDec n 1) → ∀ j, (O.lsolve (specialSystem O (O.degree t.2.1 + mult)
    (diffE O n homo k t.2.1 t.1 (ansatz n (O.unknown j) (O.degree t.2.1 + mult) t.1)))
    ((List.range (O.degree t.2.1 + mult + 1)).map (O.unknown j))).isSome = true

/-- What is assumed of the roots of the characteristic equation: they are all the roots, distinct and with their multiplicities. -/
structure RootsAre (I : Interp K) (O : Ops) (n : String) (B : String → Prop) (ρ : String → K) (f k : ℕ) (a : ℕ → K) (roots : List (Expr × ℕ))
    (rv : Expr → K) : Prop where
  val : ∀ r ∈ roots, Denotes I n (Unknown O) ρ f r.1 fun _ => rv r.1
  shape : ∀ r ∈ roots, Shape B (fun _ => False) r.1
  are : AreRoots (⟨k, a, fun _ => 0, f⟩ : LinRec K) (roots.map fun r => (rv r.1, r.2))
  distinct : (roots.map fun r => rv r.1).Nodup
  pos : ∀ r ∈ roots, 1 ≤ r.2

theorem RootsAre.nodup {a : ℕ → K} {roots : List (Expr × ℕ)} {rv : Expr → K} (h : RootsAre I O n B ρ f k a roots rv) :
    ((roots.map fun r => (rv r.1, r.2)).map Prod.fst).Nodup := by
  rw [List.map_map]; exact h.distinct

/-- The multiplicity found by comparing expressions is that of the value, if equal expressions are recognised. -/
theorem multOf_eq [DecidableEq K] {roots : List (Expr × ℕ)} {rv : Expr → K} {base : Expr} {b : K} (h : ∀ r ∈ roots, O.rw r.1 = base ↔ rv r.1 = b) :
    multOf O roots base = baseMult (roots.map fun r => (rv r.1, r.2)) b := by
  induction roots with
  | nil => rfl
  | cons r rs ih =>
    have h1 := ih fun r' h' => h r' (by simp [h'])
    have h2 := h r (by simp)
    unfold multOf baseMult at *
    rw [List.foldr_cons, List.map_cons, List.foldr_cons, h1]
    by_cases e : O.rw r.1 = base
    · rw [if_pos e, if_pos (h2.mp e)]
    · rw [if_neg e, if_neg (fun e' => e (h2.mpr e'))]

theorem Denotes.add {U : String → Prop} {e e' : Expr} {s s' : ℕ → K} (h : Denotes I n U ρ f e s) (h' : Denotes I n U ρ f e' s') :
    Denotes I n U ρ f (addE e e') fun N => s N + s' N :=
  fun X σ N hN hσ => by rw [eval_addE, h X σ N hN hσ, h' X σ N hN hσ]

theorem specialSum_spec [DecidableEq K] (hO : OpsOk I O n B ρ f k) (hk : 1 ≤ k) {a p : ℕ → K} {rhs inhom : Expr}
    (hR : RecIs I O n B ρ f k rhs inhom a p) {roots : List (Expr × ℕ)} {rv : Expr → K} (hroots : RootsAre I O n B ρ f k a roots rv)
    (b : Expr × Expr × Expr → K) (P : Expr × Expr × Expr → K[X]) :
    ∀ (ts : List (Expr × Expr × Expr)) (j : ℕ) (sol : Expr) (s0 p0 : ℕ → K), (∀ t ∈ ts, TermIs I O n B ρ f t (b t) (P t)) →
    (∀ t ∈ ts, ∀ r ∈ roots, O.rw r.1 = t.1 ↔ rv r.1 = b t) →
    (∀ t ∈ ts, TermSolved I O n B ρ f k (O.auto (subE rhs inhom)) (multOf O roots t.1) t (P t)) →
    Shape B (fun _ => False) sol → Denotes I n (Unknown O) ρ f sol s0 →
    (∀ N, f + k ≤ N → s0 N = (∑ i ∈ Finset.range k, a (i + 1) * s0 (N - (i + 1))) + p0 N) →
    ∀ s, specialSum O n (O.auto (subE rhs inhom)) k roots j ts sol = some s →
      Shape B (fun _ => False) s ∧ ∃ s' : ℕ → K, Denotes I n (Unknown O) ρ f s s' ∧
      ∀ N, f + k ≤ N → s' N = (∑ i ∈ Finset.range k, a (i + 1) * s' (N - (i + 1))) + (p0 N + (ts.map fun t => (P t).eval (N : K) * b t ^ N).sum) := by
  intro ts
  induction ts with
  | nil =>
    intro j sol s0 p0 _ _ _ h1 h2 h3 s hs
    rw [specialSum, Option.some.injEq] at hs
    subst hs
    exact ⟨h1, s0, h2, fun N hN => by rw [h3 N hN]; simp⟩
  | cons t ts ih =>
    intro j sol s0 p0 ht hm hs h1 h2 h3 s h
    rw [specialSum] at h
    obtain ⟨s1, e1, e2⟩ := Option.bind_eq_some_iff.mp h
    obtain ⟨g1, s1', g2, g3⟩ := special_spec hO hk hR (ht t (by simp)) hroots.are hroots.nodup (j + 1) (multOf_eq (hm t (by simp))) (fun h => (hs t (by simp)).recognised h _) (fun h => (hs t (by simp)).solved h _) (hs t (by simp)).sum e1
    obtain ⟨r1, s', r2, r3⟩ := ih (j + 1) (addE sol s1) (fun N => s0 N + s1' N) (fun N => p0 N + (P t).eval (N : K) * b t ^ N)
      (fun t' h' => ht t' (by simp [h'])) (fun t' h' => hm t' (by simp [h'])) (fun t' h' => hs t' (by simp [h'])) (shape_addE h1 g1) (h2.add g2)
      (fun N hN => by simp only [mul_add, Finset.sum_add_distrib]; rw [h3 N hN, g3 N hN]; ring) s e2
    refine ⟨r1, s', r2, fun N hN => ?_⟩
    rw [r3 N hN, List.map_cons, List.sum_cons]
    ring

/-- The inhomogeneous term is the sum of the terms of the decomposition. -/
theorem decomposition_val (hO : OpsOk I O n B ρ f k) {inhom : Expr} {p : ℕ → K} (hp : Denotes I n (Unknown O) ρ f inhom p)
    (hs : Shape B (fun _ => False) inhom) {b : Expr × Expr × Expr → K} {P : Expr × Expr × Expr → K[X]}
    (ht : ∀ t ∈ decomposition O n inhom, TermIs I O n B ρ f t (b t) (P t))
    (hz : ∀ t ∈ decomposition O n inhom, t.2.2 = .num 0) {N : ℕ} (hN : f ≤ N) :
    p N = ((decomposition O n inhom).map fun t => (P t).eval (N : K) * b t ^ N).sum := by
  have hx := shape_hasX hs
  have hi := shape_idx hO.nB hs
  have hσ := agrees_self n (Unknown O) ρ N
  have e1 : eval (withX I fun _ => 0) (update ρ n (N : K)) (O.epSimp (O.expand inhom)) = p N := by
    rw [hO.epSimp.val _ (hO.expand.noX _ hx hi) (hO.expand.idx _ hx hi) _ _ N hN hσ, hO.expand.val _ hx hi _ _ N hN hσ, hp _ _ N hN hσ]
  rw [← e1, ← (C13_decomposition (withX I fun _ => 0) n (O.epSimp (O.expand inhom))).2]
  unfold epValue
  refine congrArg List.sum (List.map_congr_left fun t htm => ?_)
  rw [(ht t htm).base _ _ N hN hσ, (ht t htm).poly _ _ N hN hσ, hz t htm, update_self, pw_nat]
  simp [eval, mul_comm]

theorem eval_generalE {U : String → Prop} {rv : Expr → K} (u : ℕ → String) (X : K → K) {σ : String → K} {N : ℕ} (hN : f ≤ N)
    (hσ : Agrees n U ρ σ N) : ∀ (roots : List (Expr × ℕ)) (h : ℕ) (g : Expr), (∀ r ∈ roots, Denotes I n U ρ f r.1 fun _ => rv r.1) →
    eval (withX I X) σ (generalE n u roots h g)
      = generalHom (fun i => σ (u i)) (N : ℤ) (roots.map fun r => (rv r.1, r.2)) h (eval (withX I X) σ g) := by
  intro roots
  induction roots with
  | nil => intro h g _; rfl
  | cons r rs ih =>
    intro h g hr
    have key : ∀ (l : List ℕ) (st : ℕ × Expr) (st' : ℕ × K), st'.1 = st.1 → st'.2 = eval (withX I X) σ st.2 →
        (l.foldl (fun (st : ℕ × K) j => (st.1 + 1, st.2 + σ (u st.1) * rv r.1 ^ (N : ℤ) * ((N : ℤ) : K) ^ j)) st').1
          = (l.foldl (fun (st : ℕ × Expr) (j : ℕ) =>
            (st.1 + 1, addE st.2 (mulE (mulE (.sym (u st.1)) (powE r.1 (.sym n))) (powE (.sym n) (.num j))))) st).1 ∧
        (l.foldl (fun (st : ℕ × K) j => (st.1 + 1, st.2 + σ (u st.1) * rv r.1 ^ (N : ℤ) * ((N : ℤ) : K) ^ j)) st').2
          = eval (withX I X) σ (l.foldl (fun (st : ℕ × Expr) (j : ℕ) =>
            (st.1 + 1, addE st.2 (mulE (mulE (.sym (u st.1)) (powE r.1 (.sym n))) (powE (.sym n) (.num j))))) st).2 := by
      intro l
      induction l with
      | nil => intro st st' h1 h2; exact ⟨h1, h2⟩
      | cons j l ihl =>
        intro st st' h1 h2
        rw [List.foldl_cons, List.foldl_cons]
        refine ihl _ _ (by simp [h1]) ?_
        simp only [eval_addE, eval_mulE, eval_powE]
        rw [h2, hr r (by simp) X σ N hN hσ]
        simp only [eval, hσ.1, h1]
        rw [pw_nat, Rat.cast_natCast, pw_nat, zpow_natCast, Int.cast_natCast]
    rw [generalE, List.map_cons, generalHom]
    obtain ⟨k1, k2⟩ := key (List.range r.2) (h, g) (h, eval (withX I X) σ g) rfl rfl
    simp only
    rw [ih _ _ fun r' h' => hr r' (by simp [h']), ← k1, ← k2]

theorem shape_generalE {S : ℚ → Prop} (u : ℕ → String) : ∀ (roots : List (Expr × ℕ)) (h : ℕ) (g : Expr), Shape B S g →
    (∀ r ∈ roots, Shape B S r.1) → Shape B S (generalE n u roots h g) := by
  intro roots
  induction roots with
  | nil => intro h g hg _; exact hg
  | cons r rs ih =>
    intro h g hg hr
    have key : ∀ (l : List ℕ) (st : ℕ × Expr), Shape B S st.2 → Shape B S (l.foldl (fun (st : ℕ × Expr) (j : ℕ) =>
            (st.1 + 1, addE st.2 (mulE (mulE (.sym (u st.1)) (powE r.1 (.sym n))) (powE (.sym n) (.num j))))) st).2 := by
      intro l
      induction l with
      | nil => intro st h; exact h
      | cons j l ihl =>
        intro st h
        refine ihl _ (shape_addE h (shape_mulE (shape_mulE (by simp [Shape]) (shape_powE (hr r (by simp)) (by simp [Shape])))
          (shape_powE (by simp [Shape]) (by simp [Shape]))))
    rw [generalE]
    exact ih _ _ (key _ _ hg) fun r' h' => hr r' (by simp [h'])

/-- A recurrence for natural numbers as one for integers. -/
theorem solves_of_nat {a p x : ℕ → K} (h : ∀ N, f + k ≤ N → x N = (∑ i ∈ Finset.range k, a (i + 1) * x (N - (i + 1))) + p N) :
    Solves (⟨k, a, fun m => p m.toNat, f⟩ : LinRec K) fun m => x m.toNat := by
  intro m hm
  simp only at hm ⊢
  obtain ⟨N, rfl⟩ : ∃ N : ℕ, m = N := ⟨m.toNat, by omega⟩
  rw [Int.toNat_natCast, h N (by exact_mod_cast hm)]
  congr 1
  refine Finset.sum_congr rfl fun i hi => ?_
  congr 2
  omega

theorem shape_xAt (B : String → Prop) {i : ℕ} (hi : i < k) : Shape B (ICs f k) (xAt (f + i)) := by
  unfold xAt
  rw [Shape]
  exact ⟨fun _ => ⟨_, rfl, i, hi, rfl⟩, by simp [Shape]⟩

theorem eval_xAt (J : Interp K) (X : K → K) (σ : String → K) (m : ℕ) : eval (withX J X) σ (xAt m) = X m := by
  rw [xAt, eval_x]; simp [eval]

theorem shape_subE {S : ℚ → Prop} {x y : Expr} (hx : Shape B S x) (hy : Shape B S y) : Shape B S (subE x y) :=
  shape_addE hx (shape_mulE (by simp [Shape]) hy)

theorem shape_numN {S : ℚ → Prop} (hn : ¬ B n) (q : ℚ) {e : Expr} (he : Shape B S e) : Shape B S (substitute (.sym n) (.num q) e) :=
  shape_substitute (by simp [Shape]) (by simp) (fun t ht h => by cases h; exact hn ht) (fun q hq _ => hq) he

theorem eval_at (hO : OpsOk I O n B ρ f k) {g : Expr} (hgs : Shape B (fun _ => False) g) (J : Interp K) (σ : String → K) (i : ℕ) :
    eval J σ (substitute (.sym n) (.num (f + i : ℕ)) g) = eval J (update σ n ((f + i : ℕ) : K)) g := by
  have := EvalRules.eval_substNum J n (shape_idx hO.nB hgs) ((f + i : ℕ) : ℚ) σ
  simpa using this

/-- The equations for the constants hold if and only if the values of the unknowns solve the equations of the value level. -/
theorem constants_iff (hO : OpsOk I O n B ρ f k) {a : ℕ → K} {roots : List (Expr × ℕ)} {rv : Expr → K}
    (hroots : RootsAre I O n B ρ f k a roots rv) {sol : Expr} {s' : ℕ → K} (hshape : Shape B (fun _ => False) sol)
    (hsol : Denotes I n (Unknown O) ρ f sol s') (X : K → K) {σ : String → K} (hσ : Same n (Unknown O) ρ σ) :
    Sat I X σ (constantsSystem n f k (generalE n (O.unknown 0) roots 0 sol)) ↔
      ICSolved f (roots.map fun r => (rv r.1, r.2)) (fun i => σ (O.unknown 0 i)) (fun m => s' m.toNat) fun m => X ((m.toNat : ℕ) : K) := by
  have hnum : numUnknowns (roots.map fun r => (rv r.1, r.2)) = k := order_eq hroots.are
  have hgs : Shape B (fun _ => False) (generalE n (O.unknown 0) roots 0 sol) := shape_generalE _ roots 0 sol hshape hroots.shape
  have key : ∀ i : ℕ, eval (withX I X) σ (subE (xAt (f + i)) (substitute (.sym n) (.num (f + i : ℕ)) (generalE n (O.unknown 0) roots 0 sol)))
      = X (((f : ℤ) + i).toNat : K) - generalSolution (roots.map fun r => (rv r.1, r.2)) (fun i => σ (O.unknown 0 i)) (fun m => s' m.toNat) ((f : ℤ) + i) := by
    intro i
    have hag : Agrees n (Unknown O) ρ (update σ n ((f + i : ℕ) : K)) (f + i) := ⟨by simp, fun t h1 h2 => by rw [update_of_ne h1, hσ t h1 h2]⟩
    rw [eval_subE, eval_xAt, eval_at hO hgs, eval_generalE _ X (by omega) hag roots 0 sol hroots.val, hsol X _ (f + i) (by omega) hag, generalSolution]
    have e0 : (fun i' => update σ n ((f + i : ℕ) : K) (O.unknown 0 i')) = fun i' => σ (O.unknown 0 i') := funext fun i' => update_of_ne (hO.ne 0 i') _ _
    rw [e0, show ((f : ℤ) + i).toNat = f + i by omega]
    push_cast
    rfl
  constructor
  · intro h i hi
    rw [hnum] at hi
    have := h _ (by rw [constantsSystem, List.mem_reverse, List.mem_map]; exact ⟨i, by simpa using hi, rfl⟩)
    rw [key] at this
    simpa [eval] using this
  · intro h q hq
    rw [constantsSystem, List.mem_reverse, List.mem_map] at hq
    obtain ⟨i, hi, rfl⟩ := hq
    rw [List.mem_range] at hi
    have := h i (by rw [hnum]; exact hi)
    rw [key]
    simpa [eval] using this

theorem constants_eqs (hO : OpsOk I O n B ρ f k) {g : Expr} (hgs : Shape B (fun _ => False) g) : ∀ p ∈ constantsSystem n f k g,
    Shape B (ICs f k) p.1 ∧ Shape B (ICs f k) p.2 ∧ Ignores I (fun t => t = n) p.1 ∧ Ignores I (fun t => t = n) p.2 := by
  intro p hp
  rw [constantsSystem, List.mem_reverse, List.mem_map] at hp
  obtain ⟨i, hi, rfl⟩ := hp
  rw [List.mem_range] at hi
  refine ⟨shape_subE (shape_xAt B hi) (shape_numN hO.nB _ (shape_mono (fun _ h => h.elim) hgs)), by simp [Shape], ?_, fun X σ τ _ => by simp [eval]⟩
  intro X σ τ hστ
  simp only [eval_subE]
  rw [eval_xAt, eval_xAt, eval_at hO hgs, eval_at hO hgs]
  have : update σ n ((f + i : ℕ) : K) = update τ n ((f + i : ℕ) : K) := by
    funext t
    by_cases ht : t = n
    · subst ht; simp
    · rw [update_of_ne ht, update_of_ne ht]; exact hστ t ht
  rw [this]

/-- In the system for the constants every unknown is determined. -/
theorem constants_separate (hO : OpsOk I O n B ρ f k) (hk : 1 ≤ k) {a : ℕ → K} (ha : a k ≠ 0) {roots : List (Expr × ℕ)} {rv : Expr → K}
    (hroots : RootsAre I O n B ρ f k a roots rv) {sol : Expr} {s' : ℕ → K} (hshape : Shape B (fun _ => False) sol)
    (hsol : Denotes I n (Unknown O) ρ f sol s') :
    Separate I n (Unknown O) ρ (constantsSystem n f k (generalE n (O.unknown 0) roots 0 sol)) k (O.unknown 0) := by
  intro i hi
  refine .inl fun X σ τ hσ hτ h1 h2 => ?_
  rw [constants_iff hO hroots hshape hsol X hσ] at h1
  rw [constants_iff hO hroots hshape hsol X hτ] at h2
  exact C147_constants_determined (⟨k, a, fun _ => 0, f⟩ : LinRec K) _ hk ha hroots.are (fun r hr => by
    obtain ⟨r', h', rfl⟩ := List.mem_map.mp hr
    exact hroots.pos r' h') hroots.nodup h1 h2 i hi

/-- The constants of the general solution. -/
theorem constants_spec (hO : OpsOk I O n B ρ f k) (hk : 1 ≤ k) {a p : ℕ → K} (ha : a k ≠ 0) {roots : List (Expr × ℕ)} {rv : Expr → K}
    (hroots : RootsAre I O n B ρ f k a roots rv) {sol : Expr} {s' : ℕ → K} (hshape : Shape B (fun _ => False) sol)
    (hsol : Denotes I n (Unknown O) ρ f sol s')
    (hs : ∀ N, f + k ≤ N → s' N = (∑ i ∈ Finset.range k, a (i + 1) * s' (N - (i + 1))) + p N)
    {e : Expr} (h : constants O n f roots sol = some e) :
    Shape B (ICs f k) e ∧ ∀ X : K → K, (∀ N : ℕ, f + k ≤ N → X N = (∑ i ∈ Finset.range k, a (i + 1) * X ((N - (i + 1) : ℕ) : K)) + p N) →
      ∀ N : ℕ, f ≤ N → eval (withX I X) (update ρ n (N : K)) e = X N := by
  unfold constants at h
  obtain ⟨vals, hv, rfl⟩ := Option.map_eq_some_iff.mp h
  have hnum : (roots.map Prod.snd).sum = k := by
    have := order_eq hroots.are
    rw [List.map_map] at this
    exact this
  rw [hnum] at hv
  set u := O.unknown 0 with hu
  set g := generalE n u roots 0 sol with hg
  have hsubf : ∀ {e : Expr}, Shape B (fun _ => False) e → Shape B (ICs f k) e := fun h => shape_mono (fun _ h => h.elim) h
  have hgs : Shape B (fun _ => False) g := shape_generalE u roots 0 sol hshape hroots.shape
  have hgs' := hsubf hgs
  have hsolution : Solution I n B (Unknown O) ρ (ICs f k) (constantsSystem n f k g) k u vals :=
    hO.lsolve _ _ _ 0 _ (.inr rfl) hv (constants_eqs hO hgs) (constants_separate hO hk ha hroots hshape hsol)
  have hinj : ∀ i i', u i = u i' → i = i' := hO.inj 0
  have hlen := hsolution.len
  have hvs : ∀ i < vals.length, Shape B (ICs f k) (vals.getD i (.num 0)) := by
    intro i hi
    rcases hsolution.each i (by omega) with h | h
    · rw [h]; simp [Shape]
    · exact h.1
  have hback := fun X : K → K => eval_backSub (J := withX I X) (B := B) (S := ICs f k) (u := u) (vals := vals) (e := g)
    (fun i => hO.notB 0 i) hvs
    (fun i hi σ t v ht => by
      rcases hsolution.each i (by omega) with h | h
      · rw [h]
        simp only [eval]
        exact update_of_ne (by rintro rfl; exact hO.notB 0 i ht) _ _
      · exact h.2.indep (V := fun t => B t ∨ t = n ∨ Unknown O t) (.inl ht) X σ v)
    (fun i i' _ hi' hne σ w => by
      rcases hsolution.each i' (by omega) with h | h
      · rw [h]
        simp only [eval]
        exact update_of_ne (fun e => hne (hinj _ _ e).symm) _ _
      · exact h.2.indep (V := fun t => B t ∨ t = n ∨ Unknown O t) (.inr (.inr ⟨0, i, rfl⟩)) X σ w) hgs'
  refine ⟨(hback fun _ => 0).1, fun X hX N hN => ?_⟩
  set c : ℕ → K := fun i => eval (withX I X) ρ (vals.getD i (.num 0)) with hc
  have hcv : ∀ i < k, ∀ σ : String → K, (vals.getD i (.num 0) = .sym (u i) → σ (u i) = ρ (u i)) →
      (∀ t, t ≠ n → ¬ Unknown O t → σ t = ρ t) → eval (withX I X) σ (vals.getD i (.num 0)) = c i := by
    intro i hi σ h1 h2
    rcases hsolution.each i hi with h | h
    · rw [hc]
      simp only
      rw [h]
      simpa [eval] using h1 h
    · refine h.2 _ _ _ fun t ht => ?_
      push Not at ht
      exact h2 t ht.2.1 ht.2.2
  have hset : ∀ (w : ℕ → K) (σ : String → K) (N : ℕ), Agrees n (Unknown O) ρ σ N → Agrees n (Unknown O) ρ (setUnknowns u k w σ) N := by
    intro w σ N hσ
    exact hσ.unknown hO.unk fun t ht => (setUnknowns_spec hinj k w σ).1 t fun i _ e => ht ⟨0, i, e⟩
  let R : LinRec K := ⟨k, a, fun m => p m.toNat, f⟩
  set rs : List (K × ℕ) := roots.map fun r => (rv r.1, r.2) with hrs
  -- only the first `k` unknowns matter
  have hgen : ∀ (w w' : ℕ → K), (∀ i < k, w i = w' i) → ∀ (m : ℤ) (v : K), generalHom w m rs 0 v = generalHom w' m rs 0 v := by
    intro w w' hw m v
    have hl : (rs.map Prod.snd).sum = k := by rw [hrs, List.map_map]; exact hnum
    have key : ∀ (l : List (K × ℕ)) (h : ℕ) (v : K), h + (l.map Prod.snd).sum ≤ k → generalHom w m l h v = generalHom w' m l h v := by
      intro l
      induction l with
      | nil => intro h v _; rfl
      | cons r l ih =>
        intro h v hle
        rw [List.map_cons, List.sum_cons] at hle
        rw [generalHom, generalHom]
        have inner : ∀ (d : ℕ), d ≤ r.2 → (List.range d).foldl (fun (st : ℕ × K) j => (st.1 + 1, st.2 + w st.1 * r.1 ^ m * (m : K) ^ j)) (h, v)
            = (List.range d).foldl (fun (st : ℕ × K) j => (st.1 + 1, st.2 + w' st.1 * r.1 ^ m * (m : K) ^ j)) (h, v) ∧
            ((List.range d).foldl (fun (st : ℕ × K) j => (st.1 + 1, st.2 + w' st.1 * r.1 ^ m * (m : K) ^ j)) (h, v)).1 = h + d := by
          intro d
          induction d with
          | zero => intro _; exact ⟨rfl, rfl⟩
          | succ d ihd =>
            intro hd
            obtain ⟨i1, i2⟩ := ihd (by omega)
            rw [List.range_succ, List.foldl_append, List.foldl_append, i1]
            simp only [List.foldl_cons, List.foldl_nil]
            rw [i2, hw (h + d) (by omega)]
            exact ⟨rfl, by omega⟩
        obtain ⟨i1, i2⟩ := inner r.2 le_rfl
        rw [i1, ih _ _ (by rw [i2]; omega)]
    exact key rs 0 v (by rw [hl]; omega)
  have e1 : eval (withX I X) (update ρ n (N : K)) (backSub u vals g) = generalSolution rs c (fun m => s' m.toNat) (N : ℤ) := by
    rw [(hback X).2, hlen]
    have hag := agrees_self n (Unknown O) ρ N
    rw [hg, eval_generalE u X hN (hset _ _ _ hag) roots 0 sol hroots.val, hsol X _ N hN (hset _ _ _ hag), generalSolution, Int.toNat_natCast]
    refine hgen _ _ (fun i hi => ?_) _ _
    rw [(setUnknowns_spec hinj k _ _).2 i hi]
    exact hcv i hi _ (fun _ => update_of_ne (hO.ne 0 i) _ _) hag.2
  rw [e1]
  have hsame : Same n (Unknown O) ρ (setUnknowns u k c ρ) :=
    fun t _ h2 => (setUnknowns_spec hinj k c ρ).1 t fun i _ e => h2 ⟨0, i, e⟩
  have hsat := hsolution.sat X _ hsame fun i hi => by
    rcases hsolution.each i hi with h | h
    · exact .inl h
    · refine .inr ?_
      rw [(setUnknowns_spec hinj k c ρ).2 i hi, hc]
      refine h.2 _ _ _ fun t ht => ?_
      push Not at ht
      exact (hsame t ht.2.1 ht.2.2).symm
  have hic : ICSolved f rs c (fun m => s' m.toNat) fun m => X ((m.toNat : ℕ) : K) := by
    intro i hi
    have := (constants_iff hO hroots hshape hsol X hsame).mp hsat i hi
    unfold generalSolution at this ⊢
    rwa [hgen _ c fun i hi => (setUnknowns_spec hinj k c ρ).2 i hi] at this
  have hx : Solves R fun m => X ((m.toNat : ℕ) : K) := solves_of_nat (x := fun N => X (N : K)) hX
  have hs2 : Solves R fun m => s' m.toNat := solves_of_nat hs
  have hr2 : AreRoots R rs := hroots.are
  have := solves_unique (general_solves R rs hk ha hr2 _ hs2 c) hx (fun i hi => by
    have := hic i (by unfold numUnknowns; rw [order_eq hr2]; exact hi)
    exact (sub_eq_zero.mp this).symm) (N : ℤ) (by exact_mod_cast hN)
  rw [this, Int.toNat_natCast]

/-- Order 1. -/
theorem order1_spec (hO : OpsOk I O n B ρ f 1) {a p : ℕ → K} {a1 : Expr} (ha1 : Denotes I n (Unknown O) ρ f a1 fun _ => a 1)
    (hsa : Shape B (fun _ => False) a1) {sol : Expr} {s' : ℕ → K} (hshape : Shape B (fun _ => False) sol)
    (hsol : Denotes I n (Unknown O) ρ f sol s') (hs : ∀ N, f + 1 ≤ N → s' N = a 1 * s' (N - 1) + p N) :
    Shape B (ICs f 1) (order1 n f a1 sol) ∧ ∀ X : K → K, (∀ N : ℕ, f + 1 ≤ N → X N = a 1 * X ((N - 1 : ℕ) : K) + p N) →
      ∀ N : ℕ, f ≤ N → eval (withX I X) (update ρ n (N : K)) (order1 n f a1 sol) = X N := by
  have hsubf : ∀ {e : Expr}, Shape B (fun _ => False) e → Shape B (ICs f 1) e := fun h => shape_mono (fun _ h => h.elim) h
  constructor
  · unfold order1
    refine shape_addE (shape_mulE (shape_subE ?_ (shape_numN hO.nB _ (hsubf hshape))) (shape_powE (hsubf hsa) (shape_subE ?_ ?_))) (hsubf hshape)
    · simpa using shape_xAt (f := f) (k := 1) B (i := 0) (by omega)
    · simp [Shape]
    · simp [Shape]
  intro X hX N hN
  have hag := agrees_self n (Unknown O) ρ N
  have hi := shape_idx hO.nB hshape
  have hat : eval (withX I X) (update ρ n (N : K)) (substitute (.sym n) (.num f) sol) = s' f := by
    have := EvalRules.eval_substNum (withX I X) n hi (f : ℚ) (Function.update ρ n (N : K))
    rw [Function.update_idem] at this
    rw [← hsol X _ f le_rfl (agrees_self n _ ρ f)]
    simpa using this
  have hpow : eval (withX I X) (update ρ n (N : K)) (powE a1 (subE (.sym n) (.num f))) = a 1 ^ (N - f) := by
    rw [eval_powE, ha1 X _ N hN hag, eval_subE]
    simp only [eval, update_self, Rat.cast_natCast]
    rw [← Nat.cast_sub hN, pw_nat]
  rw [order1, eval_addE, eval_mulE, eval_subE, eval_xAt, hat, hpow, hsol X _ N hN hag]
  have key : ∀ d : ℕ, X ((f + d : ℕ) : K) - s' (f + d) = (X f - s' f) * a 1 ^ d := by
    intro d
    induction d with
    | zero => simp
    | succ d ih =>
      have h1 := hX (f + (d + 1)) (by omega)
      have h2 := hs (f + (d + 1)) (by omega)
      rw [show f + (d + 1) - 1 = f + d by omega] at h1 h2
      rw [h1, h2, pow_succ, ← mul_assoc, ← ih]
      ring
  have := key (N - f)
  rw [show f + (N - f) = N by omega] at this
  linear_combination -this

theorem finish_spec (hO : OpsOk I O n B ρ f k) {e : Expr} (h : Shape B (ICs f k) e) :
    Shape B (ICs f k) (finish O f k e) ∧ ∀ (X : K → K) (N : ℕ), f ≤ N →
      eval (withX I X) (update ρ n (N : K)) (finish O f k e) = eval (withX I X) (update ρ n (N : K)) e := by
  cases e with
  | add l => exact ⟨(hO.collect _).shape _ h, fun X N hN => (hO.collect _).val _ h X N hN⟩
  | _ => exact ⟨h, fun X N hN => rfl⟩

/-- **C145** (constant coefficients).  For every linear recurrence of finite order with constant coefficients whose inhomogeneous term is a sum of
polynomials times exponentials, the expression returned by the solver is the solution of the recurrence: every sequence satisfying the recurrence has
its values from the first valid index on, and `x` occurs in it only in the initial conditions `x(f), …, x(f + k - 1)`. -/
theorem C145_constant_coefficients [DecidableEq K] (hO : OpsOk I O n B ρ f k) (hk : 1 ≤ k) {a p : ℕ → K} (ha : a k ≠ 0) {rhs inhom : Expr}
    (hR : RecIs I O n B ρ f k rhs inhom a p) {a1 : Expr} (ha1 : k = 1 → Denotes I n (Unknown O) ρ f a1 fun _ => a 1)
    (hsa : Shape B (fun _ => False) a1) {roots : List (Expr × ℕ)} {rv : Expr → K} (hroots : RootsAre I O n B ρ f k a roots rv)
    {b : Expr × Expr × Expr → K} {P : Expr × Expr × Expr → K[X]}
    (ht : ∀ t ∈ decomposition O n inhom, TermIs I O n B ρ f t (b t) (P t))
    (hm : ∀ t ∈ decomposition O n inhom, ∀ r ∈ roots, O.rw r.1 = t.1 ↔ rv r.1 = b t)
    (hts : ∀ t ∈ decomposition O n inhom, TermSolved I O n B ρ f k (O.auto (subE rhs inhom)) (multOf O roots t.1) t (P t))
    (hz : ∀ t ∈ decomposition O n inhom, t.2.2 = .num 0) {old : Option Expr} {e : Expr}
    (h : solveLinear O n rhs inhom f k true a1 (some roots) old = some e) :
    Shape B (ICs f k) e ∧ IsSolution I n rhs ρ e f k := by
  rw [solveLinear, if_neg (by omega), if_pos rfl, Option.bind_some, solveConst] at h
  rw [if_neg (by simpa using hz)] at h
  obtain ⟨e1, h1, rfl⟩ := Option.map_eq_some_iff.mp h
  rw [newMethod] at h1
  obtain ⟨s, h2, h3⟩ := Option.bind_eq_some_iff.mp h1
  obtain ⟨g1, s', g2, g3⟩ := specialSum_spec hO hk hR hroots b P _ 0 (.num 0) (fun _ => 0) (fun _ => 0) ht hm hts (by simp [Shape])
    (fun X σ N _ _ => by simp [eval]) (by simp) s h2
  have gp : ∀ N, f + k ≤ N → s' N = (∑ i ∈ Finset.range k, a (i + 1) * s' (N - (i + 1))) + p N := by
    intro N hN
    rw [g3 N hN, zero_add, decomposition_val hO hR.inhomVal hR.shape ht hz (N := N) (by omega)]
  have q1 : Shape B (fun _ => False) (O.simp s) := hO.simp.shape _ g1
  have q2 : Denotes I n (Unknown O) ρ f (O.simp s) s' := fun X σ N hN hσ => by
    rw [hO.simp.val _ (shape_hasX g1) (shape_idx hO.nB g1) X σ N hN hσ, g2 X σ N hN hσ]
  have key : ∃ e0, O.rw e0 = e1 ∧ Shape B (ICs f k) e0 ∧ ∀ X : K → K,
      (∀ N : ℕ, f + k ≤ N → X N = (∑ i ∈ Finset.range k, a (i + 1) * X ((N - (i + 1) : ℕ) : K)) + p N) →
      ∀ N : ℕ, f ≤ N → eval (withX I X) (update ρ n (N : K)) e0 = X N := by
    dsimp only at h3
    by_cases hk1 : k = 1
    · subst hk1
      rw [if_pos rfl, Option.some.injEq] at h3
      obtain ⟨r1, r2⟩ := order1_spec hO (p := p) (ha1 rfl) hsa q1 q2 (fun N hN => by simpa using gp N hN)
      exact ⟨_, h3, r1, fun X hX => r2 X fun N hN => by simpa using hX N hN⟩
    · rw [if_neg hk1] at h3
      obtain ⟨e0, h4, h5⟩ := Option.map_eq_some_iff.mp h3
      obtain ⟨r1, r2⟩ := constants_spec hO hk ha hroots q1 q2 gp h4
      exact ⟨e0, h5, r1, r2⟩
  obtain ⟨e0, rfl, r1, r2⟩ := key
  have hrw := hO.rw.shape _ r1
  obtain ⟨f1, f2⟩ := finish_spec hO hrw
  refine ⟨f1, fun X hX N hN => ?_⟩
  rw [f2 X N hN, hO.rw.val _ r1 X N hN]
  refine r2 X (fun M hM => ?_) N hN
  rw [hX M hM]
  exact hR.lin X _ M hM (agrees_self n _ ρ M)

/-- What is assumed for a variable coefficient: the product of the coefficient and the sum of the inhomogeneous term divided by the product are
computed correctly (C53, C11, C16, C69). -/
structure VarOk (I : Interp K) (O : Ops) (n : String) (B : String → Prop) (ρ : String → K) (f : ℕ) (a1 inhom : Expr) (alpha p : ℕ → K) : Prop where
  simpX : KeepsX I n ρ f B (ICs f 1) O.simp
  shapeProduct : Shape B (fun _ => False) (O.product (f + 1) a1)
  product : Denotes I n (Unknown O) ρ f (O.product (f + 1) a1) fun N => ∏ i ∈ Finset.Icc (f + 1) N, alpha i
  shapeSum : Shape B (fun _ => False) (O.sumOrder1 f (divE inhom (O.product (f + 1) a1)))
  sum : ∀ s : ℕ → K, Denotes I n (Unknown O) ρ f (divE inhom (O.product (f + 1) a1)) s →
    Denotes I n (Unknown O) ρ f (O.sumOrder1 f (divE inhom (O.product (f + 1) a1))) fun N => ∑ i ∈ Finset.Icc (f + 1) N, s i

/-- **C145** (order 1, variable coefficient).  The expression returned is the solution, if the coefficient does not vanish after the first valid
index. -/
theorem C145_variable_coefficient (hO : OpsOk I O n B ρ f 1) {rhs inhom a1 : Expr} {alpha p : ℕ → K} (hV : VarOk I O n B ρ f a1 inhom alpha p)
    (ha : ∀ m, f < m → alpha m ≠ 0) (hp : Denotes I n (Unknown O) ρ f inhom p)
    (hlin : ∀ (X : K → K) (N : ℕ), f + 1 ≤ N → eval (withX I X) (update ρ n (N : K)) rhs = alpha N * X ((N - 1 : ℕ) : K) + p N)
    {roots : Option (List (Expr × ℕ))} {old : Option Expr} {e : Expr} (h : solveLinear O n rhs inhom f 1 false a1 roots old = some e) :
    Shape B (ICs f 1) e ∧ IsSolution I n rhs ρ e f 1 := by
  rw [solveLinear, if_neg (by omega), if_neg (by simp), if_pos rfl, Option.some.injEq] at h
  subst h
  unfold solveVar1
  dsimp only
  have p1 := hV.shapeProduct
  have p2 := hV.product
  have s1 := hV.shapeSum
  have hsum := hV.sum
  set pf := O.product (f + 1) a1 with hpf
  have d2 : Denotes I n (Unknown O) ρ f (divE inhom pf) fun N => p N / ∏ i ∈ Finset.Icc (f + 1) N, alpha i := by
    intro X σ N hN hσ
    rw [divE, eval_mulE, eval_powE, hp X σ N hN hσ, p2 X σ N hN hσ]
    simp only [eval]
    rw [show ((-1 : ℚ) : K) = ((-1 : ℤ) : K) by push_cast; ring, (withX I X).pw_int, zpow_neg_one, div_eq_mul_inv]
  have s2 := hsum _ d2
  have hsubf : ∀ {e : Expr}, Shape B (fun _ => False) e → Shape B (ICs f 1) e := fun h => shape_mono (fun _ h => h.elim) h
  have hx0 : Shape B (ICs f 1) (xAt f) := by simpa using shape_xAt (f := f) (k := 1) B (i := 0) (by omega)
  have w1 : Shape B (ICs f 1) (mulE pf (addE (O.sumOrder1 f (divE inhom pf)) (xAt f))) := shape_mulE (hsubf p1) (shape_addE (hsubf s1) hx0)
  have w2 := hV.simpX.shape _ w1
  obtain ⟨f1, f2⟩ := finish_spec hO (hO.rw.shape _ w2)
  refine ⟨f1, fun X hX N hN => ?_⟩
  have hag := agrees_self n (Unknown O) ρ N
  rw [f2 X N hN, hO.rw.val _ w2 X N hN, hV.simpX.val _ w1 X N hN, eval_mulE, eval_addE, p2 X _ N hN hag, s2 X _ N hN hag, eval_xAt]
  have := C32_variable_coefficient alpha p f (fun m hm => ha m hm) (fun m => X (m : K)) (fun m hm => by
    have := hX (m + 1) (by omega)
    rw [hlin X (m + 1) (by omega)] at this
    simpa using this) N hN
  exact this

/-- **C145** (order 0).  The right-hand side does not contain `x`: the expression returned is the solution. -/
theorem C145_order_zero (hO : OpsOk I O n B ρ f 0) {rhs inhom : Expr} {p : ℕ → K} (hp : Denotes I n (Unknown O) ρ f inhom p)
    (hsp : Shape B (fun _ => False) inhom)
    (hlin : ∀ (X : K → K) (N : ℕ), f ≤ N → eval (withX I X) (update ρ n (N : K)) rhs = p N) {cc : Bool} {a1 : Expr}
    {roots : Option (List (Expr × ℕ))} {old : Option Expr} {e : Expr} (h : solveLinear O n rhs inhom f 0 cc a1 roots old = some e) :
    Shape B (fun _ => False) e ∧ IsSolution I n rhs ρ e f 0 := by
  rw [solveLinear, if_pos rfl, Option.some.injEq] at h
  subst h
  refine ⟨hO.simp.shape _ hsp, fun X hX N hN => ?_⟩
  have hag := agrees_self n (Unknown O) ρ N
  rw [hO.simp.val _ (shape_hasX hsp) (shape_idx hO.nB hsp) X _ N hN hag, hp X _ N hN hag, hX N (by omega), hlin X N hN]

/-- **C145** (what is not solved).  Recurrences of order at least 2 with variable coefficients are answered with `TOO_COMPLEX`. -/
theorem C145_too_complex (O : Ops) (n : String) (rhs inhom : Expr) (f : ℕ) {k : ℕ} (hk : 2 ≤ k) (a1 : Expr) (roots : Option (List (Expr × ℕ)))
    (old : Option Expr) : solveLinear O n rhs inhom f k false a1 roots old = none := by
  rw [solveLinear, if_neg (by omega), if_neg (by simp), if_neg (by omega)]

end

end Purrs.SolveLin
