import Verif.Props.RecurrenceHist

/-!
# C43 (counterexample), C44, C45, C46, C47, C60: answers of a `Recurrence` object
-/

namespace Purrs
open RecState

variable {E : Engine} {M : Type}

/-! ## C43: where it fails, and a case that meets the hypotheses -/

/-- **C43 is false for functional equations whose two bounds coincide.**  Whatever the engine: after
`compute_lower_bound(); compute_upper_bound()` a call of `compute_exact_solution()` reports success
and `exact_solution()` answers the number 1, although both bounds, hence the solution, are `b`. -/
theorem C43_functional_refuted (e b : Expr) (hc : (E.classify e).1 = .success)
    (ht : (E.classify e).2.1.ty = .functional)
    (hl : E.bound (E.classify e).2.2 (E.classify e).2.1 .lower = .ok b)
    (hu : E.bound (E.classify e).2.2 (E.classify e).2.1 .upper = .ok b)
    (hr : E.rename (.num 1) = .num 1) :
    ∃ s, RecReach E e s ∧ s.lower = some b ∧ s.upper = some b ∧
      (computeExact E s).2 = some .success ∧
      (getExact E (computeExact E s).1).2 = some (.num 1) := by
  refine ⟨((RecState.new e).step E .computeLower).step E .computeUpper,
    .step _ (.step _ .new), ?_⟩
  have h1 : (RecState.new e).step E .computeLower =
      ⟨.success, (E.classify e).2.2, (E.classify e).2.1, none, some b, none, none, none, none,
        false, 0, []⟩ := by
    simp only [RecState.step, RecState.new, computeLower, RecState.classify, ne_eq,
      not_true_eq_false, if_false, hc, if_true, ht, approxFunctional, hl]
    simp
  have h2 : ((RecState.new e).step E .computeLower).step E .computeUpper =
      ⟨.success, (E.classify e).2.2, (E.classify e).2.1, some (.num 1), some b, some b, none, none,
        none, false, 0, []⟩ := by
    rw [h1]
    simp only [RecState.step, computeUpper, RecState.classify, ne_eq, reduceCtorEq,
      not_false_eq_true, if_true, ht, approxFunctional, hu]
    simp
  rw [h2]
  refine ⟨rfl, rfl, ?_, ?_⟩
  · simp [computeExact, computeExactTried]
  · simp [computeExact, computeExactTried, getExact, hr]

/-- The engine that solves nothing but `x(n) = x(n-1) + 1` (order one, valid from 1), used to show
that the hypotheses of the theorems can be met. -/
def demoEngine : Engine where
  classify e := (.success, ⟨.linConst, 1, 1, 0⟩, e)
  solve _ _ _ := .ok (.add [.fn .x [.num 0], .sym "n"])
  bound _ _ _ := .error .tooComplex
  onIC _ _ ics e := match ics with
    | [] => e
    | (_, v) :: _ => .add [v, .sym "n"]
  rename e := e

/-- The identity reading of `demoEngine`. -/
def demoReading : Reading demoEngine Expr where
  m := id
  rename _ := rfl
  onIC _ _ _ _ _ h := by simp only [id_eq] at h; rw [h]
  solve _ _ _ e h := ⟨e, h, rfl⟩
  classified _ := by simp [demoEngine]
  bound _ _ _ := by simp [demoEngine]

/-- A history with two different sets of conditions: the second answer is the one for the second
set. -/
theorem C43_example : ∃ s, RecReach demoEngine (.add [.fn .x [.sym "n"], .num 1]) s ∧
    BoundsDiffer demoReading (.add [.fn .x [.sym "n"], .num 1]) ∧ s.ics = [(1, .num 7)] ∧
    (getExact demoEngine s).2 = some (.add [.num 7, .sym "n"]) := by
  refine ⟨((((RecState.new (.add [.fn .x [.sym "n"], .num 1])).step demoEngine
    (.setICs [(1, .num 3)])).step demoEngine .computeExact).step demoEngine .getExact).step
    demoEngine (.setICs [(1, .num 7)]), .step _ (.step _ (.step _ (.step _ .new))), ?_, ?_, ?_⟩
  · intro h; simp [demoEngine] at h
  · rfl
  · rfl

/-! ## C44 -/

/-- **C44 is false.**  Whatever the engine, a state that holds a solution keeps answering with it
after `replace_recurrence(e)`: `compute_exact_solution()` reports success without looking at `e`. -/
theorem C44_replace_refuted (s : RecState) (x : Expr) (hx : s.exact = some x)
    (hi : s.ics = []) (e : Expr) :
    (computeExact E (s.replace e)).2 = some .success ∧
    (getExact E (computeExact E (s.replace e)).1).2 = some (E.rename x) := by
  obtain ⟨cl, rhs, info, ex, lo, up, e1, e2, e3, tr, fs, ics⟩ := s
  simp only at hx hi
  subst hx hi
  simp [computeExact, computeExactTried, RecState.replace, getExact]

/-- A reachable state that meets the hypotheses of `C44_replace_refuted`, for an engine that would
give a different solution for the new recurrence. -/
theorem C44_example : ∃ (E : Engine) (e1 e2 x1 x2 : Expr) (s : RecState), RecReach E e1 s ∧
    s.exact = some x1 ∧ s.ics = [] ∧
    (computeExact E (RecState.new e2)).1.exact = some x2 ∧ x1 ≠ x2 ∧ E.rename x1 = x1 := by
  refine ⟨{ demoEngine with solve := fun rhs _ _ => .ok rhs }, .num 1, .num 2, .num 1, .num 2,
    (RecState.new (.num 1)).step _ .computeExact, .step _ .new, ?_⟩
  refine ⟨rfl, rfl, rfl, ?_, rfl⟩
  intro h
  simp only [Expr.num.injEq] at h
  norm_num at h

/-- **C44 (partial: when nothing was computed and no conditions were set before).**  Then
`compute_exact_solution()` on the replaced object behaves as on a new object. -/
theorem C44_replace_fresh_partial (s : RecState) (e : Expr) (hx : s.exact = none)
    (hl : s.lower = none) (hu : s.upper = none) (hi : s.ics = []) (h1 : s.evExact = none)
    (h2 : s.evLower = none) (h3 : s.evUpper = none) :
    (computeExact E (s.replace e)).2 = (computeExact E (RecState.new e)).2 ∧
    (getExact E (computeExact E (s.replace e)).1).2 =
      (getExact E (computeExact E (RecState.new e)).1).2 := by
  have key : ∀ f i inf,
      computeExact E ⟨.notYet, e, inf, none, none, none, none, none, none, i, f, []⟩ =
        ({ (computeExact E (RecState.new e)).1 with firstSol := f },
          (computeExact E (RecState.new e)).2) := by
    intro f i inf
    unfold computeExact RecState.new
    rw [computeExactTried_fresh rfl (by simp), computeExactTried_fresh rfl (by simp)]
    simp only [RecState.classify, ne_eq, not_true_eq_false, if_false]
    by_cases hs : (E.classify e).1 = .success
    · rw [if_pos hs, if_pos hs]
      cases ht : (E.classify e).2.1.ty with
      | unknown => rfl
      | functional =>
        simp only [computeFunctional, approxFunctional, Prod.map]
        cases hbl : E.bound (E.classify e).2.2 (E.classify e).2.1 .lower with
        | error st =>
          cases hbu : E.bound (E.classify e).2.2 (E.classify e).2.1 .upper with
          | error st' => cases st <;> cases st' <;> simp
          | ok u => cases st <;> simp
        | ok l =>
          cases hbu : E.bound (E.classify e).2.2 (E.classify e).2.1 .upper with
          | error st => cases st <;> simp
          | ok u =>
            by_cases hlu : l = u
            · simp [hlu]
            · simp [hlu]
      | maxFn =>
        simp only [computeMax, Prod.map]
        cases E.solve (E.classify e).2.2 (E.classify e).2.1 (!([] : ICMap).isEmpty) <;> simp
      | _ =>
        simp only [computeFinite, computeOther, Prod.map]
        cases E.solve (E.classify e).2.2 (E.classify e).2.1 (!([] : ICMap).isEmpty) <;> simp
    · rw [if_neg hs, if_neg hs]
  obtain ⟨cl, rhs, info, ex, lo, up, e1, e2, e3, tr, fs, ics⟩ := s
  simp only at hx hl hu hi h1 h2 h3
  subst hx hl hu hi h1 h2 h3
  simp only [RecState.replace, key]
  refine ⟨trivial, ?_⟩
  generalize (computeExact E (RecState.new e)).1 = t
  obtain ⟨cl, rhs, info, ex, lo, up, e1, e2, e3, tr, fs', ics⟩ := t
  cases ex with
  | none => rfl
  | some x =>
    simp only [getExact]
    by_cases hi : ics = []
    · rw [if_pos hi, if_pos hi]
    · rw [if_neg hi, if_neg hi]
      cases e1 <;> rfl

/-- A reachable state that meets the hypotheses of `C44_replace_fresh_partial` (and is not new: its
conditions were set and removed). -/
theorem C44_fresh_example : ∃ s, RecReach demoEngine (.num 1) s ∧ s ≠ RecState.new (.num 1) ∧
    s.exact = none ∧ s.lower = none ∧ s.upper = none ∧ s.ics = [] ∧ s.evExact = none ∧
    s.evLower = none ∧ s.evUpper = none := by
  refine ⟨((RecState.new (.num 1)).step demoEngine (.setICs [(1, .num 3)])).step demoEngine
    .resetICs, .step _ (.step _ .new), ?_, rfl, rfl, rfl, rfl, rfl, rfl, rfl⟩
  intro h
  have := congrArg RecState.cl h
  revert this
  decide

/-! ## C45 -/

/-- The three results an object can hold. -/
inductive Which where
  | exact | lower | upper
  deriving DecidableEq

/-- `exact_solution`, `lower_bound`, `upper_bound`. -/
def query (E : Engine) : Which → RecState → RecState × Option Expr
  | .exact => getExact E
  | .lower => getLower E
  | .upper => getUpper E

/-- `compute_exact_solution`, `compute_lower_bound`, `compute_upper_bound`. -/
def compute (E : Engine) : Which → RecState → RecState × Option SolverStatus
  | .exact => computeExact E
  | .lower => computeLower E
  | .upper => computeUpper E

/-- The status returned by a call that computes something. -/
def RecOp.status (E : Engine) (s : RecState) : RecOp → Option SolverStatus
  | .computeExact => (RecState.computeExact E s).2
  | .computeLower => (RecState.computeLower E s).2
  | .computeUpper => (RecState.computeUpper E s).2
  | _ => none

/-- Later states. -/
inductive RecLater (E : Engine) (s : RecState) : RecState → Prop
  | refl : RecLater E s s
  | step {t : RecState} (op : RecOp) : RecLater E s t → RecLater E s (t.step E op)

/-- The cache behind each query. -/
def cached : Which → RecState → Option Expr
  | .exact => RecState.exact
  | .lower => RecState.lower
  | .upper => RecState.upper

theorem query_none_iff (w : Which) (s : RecState) : (query E w s).2 = none ↔ cached w s = none := by
  cases w <;> simp only [query, cached]
  · cases hx : s.exact with
    | none => rw [getExact_none hx]
    | some x => rw [getExact_some hx]; split_ifs with h1 h2 <;> (simp [Option.isSome_iff_ne_none] at *; try simp [*])
  · cases hx : s.lower with
    | none => rw [getLower_none hx]
    | some x => rw [getLower_some hx]; split_ifs with h1 h2 <;> (simp [Option.isSome_iff_ne_none] at *; try simp [*])
  · cases hx : s.upper with
    | none => rw [getUpper_none hx]
    | some x => rw [getUpper_some hx]; split_ifs with h1 h2 <;> (simp [Option.isSome_iff_ne_none] at *; try simp [*])

/-- Caches are never emptied. -/
def Keeps (s t : RecState) : Prop := ∀ w, cached w s ≠ none → cached w t ≠ none

theorem keeps_of_eq {s t : RecState} (h1 : t.exact = s.exact) (h2 : t.lower = s.lower)
    (h3 : t.upper = s.upper) : Keeps s t := by
  intro w hw
  cases w <;> simp only [cached] at *
  · rw [h1]; exact hw
  · rw [h2]; exact hw
  · rw [h3]; exact hw

theorem Keeps.trans {s t u : RecState} (h1 : Keeps s t) (h2 : Keeps t u) : Keeps s u :=
  fun w hw => h2 w (h1 w hw)

theorem keeps_classify (s : RecState) : Keeps s (s.classify E) := by
  obtain ⟨f1, f2, f3, -⟩ := classify_fields E s
  exact keeps_of_eq f1 f2 f3

theorem keeps_approx (s : RecState) (k : BoundKind) : Keeps s (approxFunctional E s k).1 := by
  unfold approxFunctional
  cases E.bound s.rhs s.info k with
  | error st => exact fun _ h => h
  | ok b =>
    cases k <;>
    · intro w hw
      cases w <;> simp only [cached] at * <;> (try split_ifs) <;> simp_all

theorem keeps_computeExact (s : RecState) : Keeps s (computeExact E s).1 := by
  unfold computeExact
  refine Keeps.trans (t := { s with tried := true }) (keeps_of_eq rfl rfl rfl) ?_
  generalize ({ s with tried := true } : RecState) = s
  cases hx : s.exact with
  | some x =>
    rw [computeExactTried_some hx]
    split_ifs
    · exact keeps_of_eq rfl rfl rfl
    · exact fun _ h => h
  | none =>
    by_cases hlu : s.lower ≠ none ∧ s.lower = s.upper
    · rw [computeExactTried_eq hx hlu]
      intro w hw
      cases w <;> simp only [cached] at *
      · exact hlu.1
      · exact hw
      · exact hw
    · rw [computeExactTried_fresh hx hlu]
      refine (keeps_classify (E := E) s).trans ?_
      have hx1 : (s.classify E).exact = none := (classify_fields E s).1.trans hx
      generalize s.classify E = t at *
      by_cases hs : t.cl = .success
      · rw [if_pos hs]
        cases t.info.ty with
        | unknown => exact fun _ h => h
        | functional =>
          simp only [computeFunctional, Prod.map, id]
          have k1 := keeps_approx (E := E) t .lower
          have k2 := keeps_approx (E := E) (approxFunctional E t .lower).1 .upper
          split_ifs with h1 h2 h3
          · intro w hw
            cases w
            · exact absurd hx1 hw
            · exact (k1.trans k2) .lower hw
            · exact (k1.trans k2) .upper hw
          · intro w hw
            cases w
            · exact absurd hx1 hw
            · exact (k1.trans k2) .lower hw
            · exact (k1.trans k2) .upper hw
          · exact k1.trans k2
          · exact k1
        | maxFn =>
          simp only [computeMax, Prod.map, id]
          cases E.solve t.rhs t.info (!t.ics.isEmpty) with
          | error st => exact fun _ h => h
          | ok x =>
            simp only
            intro w hw
            split_ifs <;> cases w <;> simp_all [cached]
        | _ =>
          simp only [computeFinite, computeOther, Prod.map, id]
          cases E.solve t.rhs t.info (!t.ics.isEmpty) with
          | error st => exact fun _ h => h
          | ok x =>
            simp only
            intro w hw
            split_ifs <;> cases w <;> simp_all [cached]
      · rw [if_neg hs]; exact fun _ h => h

theorem keeps_computeLower (s : RecState) : Keeps s (computeLower E s).1 := by
  cases hl : s.lower with
  | some l =>
    rw [computeLower_some hl]
    split_ifs
    · exact keeps_of_eq rfl rfl rfl
    · exact fun _ h => h
  | none =>
    cases hx : s.exact with
    | some x =>
      rw [computeLower_exact hl hx]
      intro w hw
      split_ifs <;> cases w <;> simp_all [cached]
    | none =>
      rw [computeLower_fresh hl hx]
      refine (keeps_classify (E := E) s).trans ?_
      generalize s.classify E = t at *
      by_cases hs : t.cl = .success
      · rw [if_pos hs]
        cases t.info.ty with
        | unknown => exact fun _ h => h
        | maxFn => exact fun _ h => h
        | functional =>
          simp only
          have k1 := keeps_approx (E := E) t .lower
          split_ifs
          · exact k1.trans (keeps_of_eq rfl rfl rfl)
          · exact k1
        | nonLinear =>
          simp only
          cases E.bound t.rhs t.info .lower with
          | error st => exact fun _ h => h
          | ok b => intro w hw; cases w <;> simp_all [cached]
        | _ =>
          simp only
          split_ifs
          · exact keeps_computeExact t
          · exact fun _ h => h
      · rw [if_neg hs]; exact fun _ h => h

theorem keeps_computeUpper (s : RecState) : Keeps s (computeUpper E s).1 := by
  cases hl : s.upper with
  | some l =>
    rw [computeUpper_some hl]
    split_ifs
    · exact keeps_of_eq rfl rfl rfl
    · exact fun _ h => h
  | none =>
    cases hx : s.exact with
    | some x =>
      rw [computeUpper_exact hl hx]
      intro w hw
      split_ifs <;> cases w <;> simp_all [cached]
    | none =>
      rw [computeUpper_fresh hl hx]
      refine (keeps_classify (E := E) s).trans ?_
      generalize s.classify E = t at *
      by_cases hs : t.cl = .success
      · rw [if_pos hs]
        cases t.info.ty with
        | unknown => exact fun _ h => h
        | maxFn => exact fun _ h => h
        | functional =>
          simp only
          have k1 := keeps_approx (E := E) t .upper
          split_ifs
          · exact k1.trans (keeps_of_eq rfl rfl rfl)
          · exact k1
        | nonLinear =>
          simp only
          cases E.bound t.rhs t.info .upper with
          | error st => exact fun _ h => h
          | ok b => intro w hw; cases w <;> simp_all [cached]
        | _ =>
          simp only
          split_ifs
          · exact keeps_computeExact t
          · exact fun _ h => h
      · rw [if_neg hs]; exact fun _ h => h

theorem keeps_query (w : Which) (s : RecState) : Keeps s (query E w s).1 := by
  cases w <;> simp only [query]
  · cases hx : s.exact with
    | none => rw [getExact_none hx]; exact fun _ h => h
    | some x =>
      rw [getExact_some hx]
      intro w hw
      split_ifs <;> cases w <;> simp_all [cached, setFirstSol]
  · cases hx : s.lower with
    | none => rw [getLower_none hx]; exact fun _ h => h
    | some x =>
      rw [getLower_some hx]
      intro w hw
      split_ifs <;> cases w <;> simp_all [cached, setFirstSol]
  · cases hx : s.upper with
    | none => rw [getUpper_none hx]; exact fun _ h => h
    | some x =>
      rw [getUpper_some hx]
      intro w hw
      split_ifs <;> cases w <;> simp_all [cached, setFirstSol]

theorem keeps_setICs (s : RecState) (m : ICMap) : Keeps s (RecState.setICs E s m).1 := by
  unfold RecState.setICs
  have h1 : Keeps s (if s.ics ≠ [] then s.resetICs else s) := by
    split_ifs
    · exact keeps_of_eq rfl rfl rfl
    · exact fun _ h => h
  refine (h1.trans (keeps_classify (E := E) _)).trans ?_
  generalize (if s.ics ≠ [] then s.resetICs else s).classify E = t
  unfold setICsClassified
  split_ifs
  · exact fun _ h => h
  · cases checkICs t.info m <;> exact keeps_of_eq rfl rfl rfl

theorem keeps_step (s : RecState) (op : RecOp) : Keeps s (s.step E op) := by
  cases op with
  | setICs m => exact keeps_setICs s m
  | resetICs => exact keeps_of_eq rfl rfl rfl
  | computeExact => exact keeps_computeExact s
  | computeLower => exact keeps_computeLower s
  | computeUpper => exact keeps_computeUpper s
  | getExact => exact keeps_query .exact s
  | getLower => exact keeps_query .lower s
  | getUpper => exact keeps_query .upper s

theorem keeps_later {s t : RecState} (h : RecLater E s t) : Keeps s t := by
  induction h with
  | refl => exact fun _ h => h
  | step op _ ih => exact ih.trans (keeps_step _ op)

/-- The engine does not report success without an expression. -/
def Honest (E : Engine) : Prop :=
  (∀ rhs info b, E.solve rhs info b ≠ .error .success) ∧
  (∀ rhs info k, E.bound rhs info k ≠ .error .success)

theorem classify_of {t : RecState} (h : t.cl ≠ .notYet) : t.classify E = t := by
  unfold RecState.classify; rw [if_pos h]

theorem mapStatus_ne {c : ClStatus} (h : c ≠ .success) : mapStatus c ≠ some .success := by
  cases c <;> simp_all [mapStatus]

theorem exact_of_success (hE : Honest E) {s : RecState} (h : (computeExact E s).2 = some .success) :
    (computeExact E s).1.exact ≠ none := by
  unfold computeExact at *
  generalize ({ s with tried := true } : RecState) = s at *
  cases hx : s.exact with
  | some x =>
    rw [computeExactTried_some hx]
    split_ifs <;> simp [hx]
  | none =>
    by_cases hlu : s.lower ≠ none ∧ s.lower = s.upper
    · rw [computeExactTried_eq hx hlu]; exact hlu.1
    · rw [computeExactTried_fresh hx hlu] at *
      generalize s.classify E = t at *
      by_cases hs : t.cl = .success
      · rw [if_pos hs] at *
        cases ht : t.info.ty with
        | unknown => simp [ht] at h
        | functional =>
          simp only [ht, computeFunctional, Prod.map, id] at h ⊢
          have k : (approxFunctional E t .lower).2 = .success →
              (approxFunctional E t .lower).1.lower ≠ none := by
            unfold approxFunctional
            cases hb : E.bound t.rhs t.info .lower with
            | error st => intro h'; simp only at h'; subst h'; exact absurd hb (hE.2 _ _ _)
            | ok b => intro _; simp
          generalize approxFunctional E t .lower = r1 at *
          split_ifs at h ⊢ with h1 h2 h3
          · exact keeps_approx (E := E) r1.1 .upper .lower (k h1)
          · exact keeps_approx (E := E) r1.1 .upper .lower (k h1)
          · simp at h
          · simp at h
        | maxFn =>
          simp only [ht, computeMax, Prod.map, id] at h ⊢
          cases hb : E.solve t.rhs t.info (!t.ics.isEmpty) with
          | error st =>
            simp only [hb, Option.some.injEq] at h; subst h; exact absurd hb (hE.1 _ _ _)
          | ok b => simp only; split_ifs <;> simp
        | _ =>
          simp only [ht, computeFinite, computeOther, Prod.map, id] at h ⊢
          cases hb : E.solve t.rhs t.info (!t.ics.isEmpty) with
          | error st =>
            simp only [hb, Option.some.injEq] at h; subst h; exact absurd hb (hE.1 _ _ _)
          | ok b => simp only; split_ifs <;> simp
      · rw [if_neg hs] at h
        exact absurd h (mapStatus_ne hs)

/-- When nothing is known, the solvers called by the bounds fill the three caches. -/
theorem all_of_success (hE : Honest E) {s : RecState} (h : (computeExact E s).2 = some .success)
    (hx : s.exact = none) (hlu : ¬ (s.lower ≠ none ∧ s.lower = s.upper))
    (hs : s.cl = .success)
    (ht : s.info.ty = .orderZero ∨ s.info.ty = .linConst ∨ s.info.ty = .linVar ∨
      s.info.ty = .weighted) :
    (computeExact E s).1.lower ≠ none ∧ (computeExact E s).1.upper ≠ none := by
  unfold computeExact at *
  rw [computeExactTried_fresh (s := { s with tried := true }) hx hlu] at h ⊢
  have hc : ({ s with tried := true } : RecState).classify E = { s with tried := true } := by
    unfold RecState.classify
    rw [if_pos]
    simp [hs]
  rw [hc] at h ⊢
  rw [if_pos hs] at h ⊢
  rcases ht with ht | ht | ht | ht <;>
  · simp only [ht, computeFinite, computeOther, Prod.map, id] at h ⊢
    cases hb : E.solve s.rhs s.info (!s.ics.isEmpty) with
    | error st =>
      simp only [hb, Option.some.injEq] at h; subst h; exact absurd hb (hE.1 _ _ _)
    | ok b => simp only; split_ifs <;> simp

theorem lower_of_success (hE : Honest E) {s : RecState} (h : (computeLower E s).2 = some .success) :
    (computeLower E s).1.lower ≠ none := by
  cases hl : s.lower with
  | some l => exact keeps_computeLower s .lower (by simp [cached, hl])
  | none =>
    cases hx : s.exact with
    | some x => rw [computeLower_exact hl hx]; split_ifs <;> simp
    | none =>
      rw [computeLower_fresh hl hx] at *
      obtain ⟨f1, f2, f3, f4, f5⟩ := classify_fields E s
      rw [hx] at f1; rw [hl] at f2
      generalize s.classify E = t at *
      by_cases hs : t.cl = .success
      · rw [if_pos hs] at *
        cases ht : t.info.ty with
        | unknown => simp [ht] at h
        | maxFn => simp [ht] at h
        | functional =>
          simp only [ht] at h ⊢
          unfold approxFunctional at *
          cases hb : E.bound t.rhs t.info .lower with
          | error st =>
            rw [hb] at h
            simp only at h
            split_ifs at h with h'
            · rw [h'.1] at hb; exact absurd hb (hE.2 _ _ _)
            · simp only [Option.some.injEq] at h; subst h; exact absurd hb (hE.2 _ _ _)
          | ok b => simp only; split_ifs <;> simp
        | nonLinear =>
          simp only [ht] at h ⊢
          cases hb : E.bound t.rhs t.info .lower with
          | error st =>
            simp only [hb, Option.some.injEq] at h; subst h; exact absurd hb (hE.2 _ _ _)
          | ok b => simp
        | _ =>
          simp only [ht] at h ⊢
          split_ifs at h ⊢ with hq
          · exact (all_of_success hE h f1 (by simp [f2]) hs (by simp [ht])).1
          · simp at h
      · rw [if_neg hs] at h
        exact absurd h (mapStatus_ne hs)

theorem upper_of_success (hE : Honest E) {s : RecState} (h : (computeUpper E s).2 = some .success) :
    (computeUpper E s).1.upper ≠ none := by
  cases hl : s.upper with
  | some l => exact keeps_computeUpper s .upper (by simp [cached, hl])
  | none =>
    cases hx : s.exact with
    | some x => rw [computeUpper_exact hl hx]; split_ifs <;> simp
    | none =>
      rw [computeUpper_fresh hl hx] at *
      obtain ⟨f1, f2, f3, f4, f5⟩ := classify_fields E s
      rw [hx] at f1; rw [hl] at f3
      generalize s.classify E = t at *
      by_cases hs : t.cl = .success
      · rw [if_pos hs] at *
        cases ht : t.info.ty with
        | unknown => simp [ht] at h
        | maxFn => simp [ht] at h
        | functional =>
          simp only [ht] at h ⊢
          unfold approxFunctional at *
          cases hb : E.bound t.rhs t.info .upper with
          | error st =>
            rw [hb] at h
            simp only at h
            split_ifs at h with h'
            · rw [h'.1] at hb; exact absurd hb (hE.2 _ _ _)
            · simp only [Option.some.injEq] at h; subst h; exact absurd hb (hE.2 _ _ _)
          | ok b => simp only; split_ifs <;> simp
        | nonLinear =>
          simp only [ht] at h ⊢
          cases hb : E.bound t.rhs t.info .upper with
          | error st =>
            simp only [hb, Option.some.injEq] at h; subst h; exact absurd hb (hE.2 _ _ _)
          | ok b => simp
        | _ =>
          simp only [ht] at h ⊢
          split_ifs at h ⊢ with hq
          · refine (all_of_success hE h f1 ?_ hs (by simp [ht])).2
            rintro ⟨h1, h2⟩; rw [h2] at h1; exact h1 f3
          · simp at h
      · rw [if_neg hs] at h
        exact absurd h (mapStatus_ne hs)

/-- **C45.** Once `compute_*` has returned `SUCCESS`, the corresponding query never throws, in any
later state. -/
theorem C45_success_then_answers (hE : Honest E) (w : Which) (s t : RecState)
    (h : (compute E w s).2 = some .success) (hl : RecLater E (compute E w s).1 t) :
    (query E w t).2 ≠ none := by
  rw [Ne, query_none_iff]
  apply keeps_later hl
  cases w
  · exact exact_of_success hE h
  · exact lower_of_success hE h
  · exact upper_of_success hE h

/-- The states reached by calls none of which has returned `SUCCESS`. -/
inductive RecReachFail (E : Engine) (e : Expr) : RecState → Prop
  | new : RecReachFail E e (RecState.new e)
  | step {s : RecState} (op : RecOp) : RecReachFail E e s → op.status E s ≠ some .success →
      RecReachFail E e (s.step E op)

/-- **C108 (partial: not for functional equations, see `C108_functional_refuted`).**  As
long as no `compute_*` call has returned `SUCCESS`, every query throws: the three queries,
`first_valid_index_for_solution` and the verifications. -/
theorem C108_no_success_then_throws_partial {e : Expr} {s : RecState} (h : RecReachFail E e s)
    (hf : (E.classify e).2.1.ty ≠ .functional) (hcl : ∀ e, (E.classify e).1 ≠ .notYet) :
    (∀ w, (query E w s).2 = none) ∧ firstValidForSolution s = none ∧
    (∀ k, verifyThrows s k = true) := by
  have key : s.exact = none ∧ s.lower = none ∧ s.upper = none ∧
      (s.cl = .notYet ∧ s.rhs = e ∨ s.info = (E.classify e).2.1 ∧ s.cl ≠ .notYet) := by
    induction h with
    | new => exact ⟨rfl, rfl, rfl, Or.inl ⟨rfl, rfl⟩⟩
    | @step s op _ hst ih =>
      obtain ⟨hx, hl, hu, hi⟩ := ih
      have hci : (s.classify E).info = (E.classify e).2.1 ∧ (s.classify E).cl ≠ .notYet := by
        unfold RecState.classify
        rcases hi with ⟨h1, h2⟩ | ⟨h1, h2⟩
        · rw [if_neg (not_not.2 h1), h2]; exact ⟨rfl, hcl e⟩
        · rw [if_pos h2]; exact ⟨h1, h2⟩
      obtain ⟨f1, f2, f3, -⟩ := classify_fields E s
      rw [hx] at f1; rw [hl] at f2; rw [hu] at f3
      have hexact : ∀ s : RecState, s.exact = none → s.lower = none → s.upper = none →
          ((s.classify E).info = (E.classify e).2.1 ∧ (s.classify E).cl ≠ .notYet) →
          (computeExact E s).2 ≠ some .success →
          (computeExact E s).1.exact = none ∧ (computeExact E s).1.lower = none ∧
          (computeExact E s).1.upper = none ∧ (computeExact E s).1.info = (E.classify e).2.1 ∧
          (computeExact E s).1.cl ≠ .notYet := by
        intro s hx hl hu hci hst
        obtain ⟨f1, f2, f3, -⟩ := classify_fields E s
        rw [hx] at f1; rw [hl] at f2; rw [hu] at f3
        unfold computeExact at *
        rw [computeExactTried_fresh (s := { s with tried := true }) hx (by simp [hl])] at hst ⊢
        have hc : ({ s with tried := true } : RecState).classify E =
            { s.classify E with tried := true } := by
          unfold RecState.classify; split_ifs <;> rfl
        rw [hc] at hst ⊢
        generalize s.classify E = t at *
        by_cases hs : t.cl = .success
        · rw [if_pos hs] at hst ⊢
          cases ht : t.info.ty with
          | unknown => exact ⟨f1, f2, f3, hci⟩
          | functional => rw [hci.1] at ht; exact absurd ht hf
          | maxFn =>
            simp only [ht, computeMax, Prod.map, id] at hst ⊢
            cases hb : E.solve t.rhs t.info (!t.ics.isEmpty) with
            | error st => exact ⟨f1, f2, f3, hci⟩
            | ok b => rw [hb] at hst; simp only at hst; split_ifs at hst <;> simp at hst
          | _ =>
            simp only [ht, computeFinite, computeOther, Prod.map, id] at hst ⊢
            cases hb : E.solve t.rhs t.info (!t.ics.isEmpty) with
            | error st => exact ⟨f1, f2, f3, hci⟩
            | ok b => rw [hb] at hst; simp only at hst; split_ifs at hst <;> simp at hst
        · rw [if_neg hs] at *; exact ⟨f1, f2, f3, hci⟩
      have hidem : (s.classify E).classify E = s.classify E := classify_of hci.2
      cases op with
      | setICs m =>
        have h2 : ∀ s : RecState, s.exact = none → s.lower = none → s.upper = none →
            ((s.classify E).info = (E.classify e).2.1 ∧ (s.classify E).cl ≠ .notYet) →
            (setICsClassified (s.classify E) m).1.exact = none ∧
            (setICsClassified (s.classify E) m).1.lower = none ∧
            (setICsClassified (s.classify E) m).1.upper = none ∧
            ((setICsClassified (s.classify E) m).1.cl = .notYet ∧
              (setICsClassified (s.classify E) m).1.rhs = e ∨
            (setICsClassified (s.classify E) m).1.info = (E.classify e).2.1 ∧
            (setICsClassified (s.classify E) m).1.cl ≠ .notYet) := by
          intro s hx hl hu hci
          obtain ⟨f1, f2, f3, -⟩ := classify_fields E s
          rw [hx] at f1; rw [hl] at f2; rw [hu] at f3
          generalize s.classify E = t at *
          unfold setICsClassified
          split_ifs
          · exact ⟨f1, f2, f3, Or.inr hci⟩
          · cases checkICs t.info m <;> exact ⟨f1, f2, f3, Or.inr hci⟩
        show _ ∧ _
        simp only [RecState.step, RecState.setICs]
        split_ifs with h'
        · refine h2 _ hx hl hu ?_
          unfold RecState.classify RecState.resetICs
          unfold RecState.classify at hci
          simp only
          split_ifs at hci ⊢ <;> exact hci
        · exact h2 s hx hl hu hci
      | resetICs => exact ⟨hx, hl, hu, hi⟩
      | computeExact =>
        obtain ⟨a, b, c, d⟩ := hexact s hx hl hu hci hst
        exact ⟨a, b, c, Or.inr d⟩
      | computeLower =>
        simp only [RecState.step, RecOp.status] at hst ⊢
        rw [computeLower_fresh hl hx] at *
        generalize s.classify E = t at *
        by_cases hs : t.cl = .success
        · rw [if_pos hs] at *
          cases ht : t.info.ty with
          | unknown => exact ⟨f1, f2, f3, Or.inr hci⟩
          | functional => rw [hci.1] at ht; exact absurd ht hf
          | maxFn => exact ⟨f1, f2, f3, Or.inr hci⟩
          | nonLinear =>
            simp only [ht] at hst ⊢
            cases hb : E.bound t.rhs t.info .lower with
            | error st => exact ⟨f1, f2, f3, Or.inr hci⟩
            | ok b => rw [hb] at hst; simp at hst
          | _ =>
            simp only [ht] at hst ⊢
            split_ifs at hst ⊢
            · obtain ⟨a, b, c, d⟩ := hexact t f1 f2 f3 (by rw [hidem]; exact hci) hst
              exact ⟨a, b, c, Or.inr d⟩
            · exact ⟨f1, f2, f3, Or.inr hci⟩
        · rw [if_neg hs] at *; exact ⟨f1, f2, f3, Or.inr hci⟩
      | computeUpper =>
        simp only [RecState.step, RecOp.status] at hst ⊢
        rw [computeUpper_fresh hu hx] at *
        generalize s.classify E = t at *
        by_cases hs : t.cl = .success
        · rw [if_pos hs] at *
          cases ht : t.info.ty with
          | unknown => exact ⟨f1, f2, f3, Or.inr hci⟩
          | functional => rw [hci.1] at ht; exact absurd ht hf
          | maxFn => exact ⟨f1, f2, f3, Or.inr hci⟩
          | nonLinear =>
            simp only [ht] at hst ⊢
            cases hb : E.bound t.rhs t.info .upper with
            | error st => exact ⟨f1, f2, f3, Or.inr hci⟩
            | ok b => rw [hb] at hst; simp at hst
          | _ =>
            simp only [ht] at hst ⊢
            split_ifs at hst ⊢
            · obtain ⟨a, b, c, d⟩ := hexact t f1 f2 f3 (by rw [hidem]; exact hci) hst
              exact ⟨a, b, c, Or.inr d⟩
            · exact ⟨f1, f2, f3, Or.inr hci⟩
        · rw [if_neg hs] at *; exact ⟨f1, f2, f3, Or.inr hci⟩
      | getExact => simp only [RecState.step]; rw [getExact_none hx]; exact ⟨hx, hl, hu, hi⟩
      | getLower => simp only [RecState.step]; rw [getLower_none hl]; exact ⟨hx, hl, hu, hi⟩
      | getUpper => simp only [RecState.step]; rw [getUpper_none hu]; exact ⟨hx, hl, hu, hi⟩
  obtain ⟨hx, hl, hu, -⟩ := key
  refine ⟨?_, by simp [firstValidForSolution, hx, hl, hu], ?_⟩
  · intro w; rw [query_none_iff]; cases w <;> assumption
  · intro k
    cases k with
    | none => simp [verifyThrows, hx]
    | some k => cases k <;> simp [verifyThrows, hx, hl, hu]

/-- **C108 is false for functional equations.**  Whenever the two bounds of a functional equation can be computed and differ, the
one call `compute_exact_solution()`, which fails, leaves an object whose two bound queries answer although no call has returned
`SUCCESS`. -/
theorem C108_functional_refuted {e l u : Expr} (hc : (E.classify e).1 = .success) (hf : (E.classify e).2.1.ty = .functional)
    (hl : E.bound (E.classify e).2.2 (E.classify e).2.1 .lower = .ok l)
    (hu : E.bound (E.classify e).2.2 (E.classify e).2.1 .upper = .ok u) (hlu : l ≠ u) :
    ∃ s, RecReachFail E e s ∧ (query E .exact s).2 = none ∧ (query E .lower s).2 = some (E.rename l) ∧
      (query E .upper s).2 = some (E.rename u) ∧ firstValidForSolution s ≠ none := by
  have h : computeExact E (RecState.new e) = ({ (RecState.new e) with
      tried := true, cl := .success, info := (E.classify e).2.1, rhs := (E.classify e).2.2,
      lower := some l, upper := some u }, some .tooComplex) := by
    simp [computeExact, computeExactTried, RecState.new, RecState.classify, hc, hf, computeFunctional, approxFunctional, hl, hu, hlu]
  refine ⟨_, .step .computeExact .new ?_, ?_⟩
  · simp [RecOp.status, h]
  · rw [show (RecState.new e).step E .computeExact = (computeExact E (RecState.new e)).1 from rfl, h]
    simp [query, getExact, getLower, getUpper, firstValidForSolution, RecState.new]

/-- The hypotheses of `C108_functional_refuted` are met. -/
theorem C108_functional_nonvacuous : ∃ (E : Engine) (e l u : Expr), (E.classify e).1 = .success ∧ (E.classify e).2.1.ty = .functional ∧
    E.bound (E.classify e).2.2 (E.classify e).2.1 .lower = .ok l ∧ E.bound (E.classify e).2.2 (E.classify e).2.1 .upper = .ok u ∧ l ≠ u :=
  ⟨{ demoEngine with
      classify := fun e => (.success, ⟨.functional, 1, 1, 0⟩, e)
      bound := fun _ _ k => match k with | .lower => .ok (.sym "n") | .upper => .ok (.num 1) },
    .num 1, .sym "n", .num 1, rfl, rfl, rfl, rfl, by simp⟩

/-- **C45.** On a new object every query throws. -/
theorem C45_new_throws (e : Expr) : (∀ w, (query E w (RecState.new e)).2 = none) ∧
    firstValidForSolution (RecState.new e) = none ∧
    ∀ k, verifyThrows (RecState.new e) k = true := by
  refine ⟨?_, rfl, ?_⟩
  · intro w; cases w <;> rfl
  · intro k; rcases k with - | k
    · rfl
    · cases k <;> rfl

/-- **C45.** The verifications and `first_valid_index_for_solution` throw exactly when the
query that returns what they need does (a bound is also verified when only the exact solution is
there). -/
theorem C45_verify_throws_iff (s : RecState) :
    (verifyThrows s none = true ↔ (query E .exact s).2 = none) ∧
    (verifyThrows s (some .lower) = true ↔
      (query E .exact s).2 = none ∧ (query E .lower s).2 = none) ∧
    (verifyThrows s (some .upper) = true ↔
      (query E .exact s).2 = none ∧ (query E .upper s).2 = none) ∧
    (firstValidForSolution s = none ↔ ∀ w, (query E w s).2 = none) := by
  simp only [query_none_iff, cached, verifyThrows, firstValidForSolution]
  refine ⟨by simp, by simp, by simp, ?_⟩
  constructor
  · intro h w
    split_ifs at h with h'
    cases w
    · exact h'.1
    · exact h'.2.1
    · exact h'.2.2
  · intro h
    rw [if_pos ⟨h .exact, h .lower, h .upper⟩]

/-- Both hypotheses occur: after a successful computation and two more calls the query answers, and
an engine that fails leaves an object that throws. -/
theorem C45_example :
    (∃ t, Honest demoEngine ∧
      (compute demoEngine .exact (RecState.new (.num 1))).2 = some .success ∧
      RecLater demoEngine (compute demoEngine .exact (RecState.new (.num 1))).1 t ∧
      t.ics = [(1, .num 3)]) ∧
    (∃ s, RecReachFail { demoEngine with solve := fun _ _ _ => .error .tooComplex } (.num 1) s ∧
      s.tried = true) := by
  refine ⟨⟨_, ?_, rfl, .step (.setICs [(1, .num 3)]) (.step .getExact .refl), rfl⟩,
    ⟨_, .step .computeExact .new (by decide), rfl⟩⟩
  constructor <;> intros <;> simp [demoEngine]

end Purrs
