import Verif.Model.VerifyObj
import Verif.Props.VerifyRefuted
import Verif.Props.RecurrenceObj

/-!
# C142: the verdict of a verification is about the answer the program gives
-/

set_option linter.unusedSectionVars false

namespace Purrs

open RecState
open Verify (Verdict Oracle yes verifyFiniteOrder OracleOk RecOk Candidate CandidateInClass InClass firstIC idOracle recOne
  xAt xDec)
open OrderRed (IsSolution SolvesAt withX)
open Function (update)

variable {E : Engine}

/-! ## Without initial conditions nothing is evaluated -/

/-- Without initial conditions no value on initial conditions is stored. -/
def NoEv (s : RecState) : Prop := s.ics = [] → s.evExact = none

theorem noEv_classify {s : RecState} (h : NoEv s) : NoEv (s.classify E) := by
  unfold RecState.classify
  split <;> exact h

theorem noEv_setFirst {s : RecState} (h : NoEv s) : NoEv (setFirstSol s) := h

theorem noEv_finite {s : RecState} (h : NoEv s) : NoEv (computeFinite E s).1 := by
  unfold computeFinite
  split
  · exact h
  · split
    · next h1 => exact fun hi => absurd hi h1.1
    · exact h

theorem noEv_other {s : RecState} (h : NoEv s) : NoEv (computeOther E s).1 := by
  unfold computeOther
  split
  · exact h
  · split
    · next h1 => exact fun hi => absurd hi h1
    · exact h

theorem noEv_max {s : RecState} (h : NoEv s) : NoEv (computeMax E s).1 := by
  unfold computeMax
  split
  · exact h
  · split
    · next h1 => exact fun hi => absurd hi h1
    · exact h

theorem approx_keeps (s : RecState) (k : BoundKind) :
    (approxFunctional E s k).1.ics = s.ics ∧ (approxFunctional E s k).1.evExact = s.evExact := by
  unfold approxFunctional
  split
  · exact ⟨rfl, rfl⟩
  · cases k <;> exact ⟨rfl, rfl⟩

theorem noEv_approx {s : RecState} (h : NoEv s) (k : BoundKind) : NoEv (approxFunctional E s k).1 := by
  obtain ⟨h1, h2⟩ := approx_keeps (E := E) s k
  intro hi
  rw [h2]
  exact h (h1 ▸ hi)

theorem noEv_functional {s : RecState} (h : NoEv s) : NoEv (computeFunctional E s).1 := by
  unfold computeFunctional
  dsimp only
  split
  · split
    · split
      · next h1 =>
        intro hi
        have e1 := (approx_keeps (E := E) (approxFunctional E s .lower).1 .upper).1
        have e2 := (approx_keeps (E := E) s .lower).1
        exact absurd (e2.symm.trans (e1.symm.trans hi)) h1
      · exact fun hi => noEv_approx (noEv_approx h .lower) .upper hi
    · exact noEv_approx (noEv_approx h .lower) .upper
  · exact noEv_approx h .lower

theorem noEv_exactTried {s : RecState} (h : NoEv s) : NoEv (computeExactTried E s).1 := by
  unfold computeExactTried
  split
  · split
    · next h1 => exact fun hi => absurd hi h1.1
    · exact h
  · split
    · exact h
    · have hc := noEv_classify (E := E) h
      dsimp only
      split
      · split
        · exact noEv_finite hc
        · exact noEv_finite hc
        · exact noEv_finite hc
        · exact noEv_functional hc
        · exact noEv_other hc
        · exact noEv_other hc
        · exact noEv_max hc
        · exact hc
      · exact hc

theorem noEv_exact {s : RecState} (h : NoEv s) : NoEv (RecState.computeExact E s).1 := noEv_exactTried (fun hi => h hi)

theorem noEv_lower {s : RecState} (h : NoEv s) : NoEv (RecState.computeLower E s).1 := by
  unfold RecState.computeLower
  split
  · split <;> exact h
  · split
    · split
      · next h1 => exact fun hi => absurd hi h1.1
      · exact h
    · have hc := noEv_classify (E := E) h
      dsimp only
      split
      · split
        · split; exacts [noEv_exact hc, hc]
        · split; exacts [noEv_exact hc, hc]
        · split; exacts [noEv_exact hc, hc]
        · split; exacts [noEv_exact hc, hc]
        · split
          · exact noEv_approx hc .lower
          · exact noEv_approx hc .lower
        · split <;> exact hc
        · exact hc
        · exact hc
      · exact hc

theorem noEv_upper {s : RecState} (h : NoEv s) : NoEv (RecState.computeUpper E s).1 := by
  unfold RecState.computeUpper
  split
  · split <;> exact h
  · split
    · split
      · next h1 => exact fun hi => absurd hi h1.1
      · exact h
    · have hc := noEv_classify (E := E) h
      dsimp only
      split
      · split
        · split; exacts [noEv_exact hc, hc]
        · split; exacts [noEv_exact hc, hc]
        · split; exacts [noEv_exact hc, hc]
        · split; exacts [noEv_exact hc, hc]
        · split
          · exact noEv_approx hc .upper
          · exact noEv_approx hc .upper
        · split <;> exact hc
        · exact hc
        · exact hc
      · exact hc

theorem noEv_setICs {s : RecState} (h : NoEv s) (m : ICMap) : NoEv (RecState.setICs E s m).1 := by
  unfold RecState.setICs
  have h1 : (if s.ics ≠ [] then s.resetICs else s).evExact = none := by
    split
    · rfl
    · next h1 => exact h (not_not.mp h1)
  generalize (if s.ics ≠ [] then s.resetICs else s) = t at h1
  have h2 : (t.classify E).evExact = none := by unfold RecState.classify; split <;> exact h1
  generalize t.classify E = u at h2
  unfold setICsClassified
  split
  · exact fun _ => h2
  · split <;> exact fun _ => h2

theorem noEv_get {s : RecState} (h : NoEv s) :
    NoEv (RecState.getExact E s).1 ∧ NoEv (RecState.getLower E s).1 ∧ NoEv (RecState.getUpper E s).1 := by
  refine ⟨?_, ?_, ?_⟩
  · unfold RecState.getExact
    split
    · exact h
    · split
      · exact h
      · next h1 => split <;> exact fun hi => absurd hi h1
  · unfold RecState.getLower
    split
    · exact h
    · split
      · exact h
      · next h1 => split <;> exact fun hi => absurd hi h1
  · unfold RecState.getUpper
    split
    · exact h
    · split
      · exact h
      · next h1 => split <;> exact fun hi => absurd hi h1

theorem noEv_reach {e : Expr} {s : RecState} (h : RecReach E e s) : NoEv s := by
  induction h with
  | new => exact fun _ => rfl
  | step op _ ih =>
    cases op with
    | setICs m => exact noEv_setICs ih m
    | resetICs => exact fun _ => rfl
    | computeExact => exact noEv_exact ih
    | computeLower => exact noEv_lower ih
    | computeUpper => exact noEv_upper ih
    | getExact => exact (noEv_get ih).1
    | getLower => exact (noEv_get ih).2.1
    | getUpper => exact (noEv_get ih).2.2

/-! ## What is verified -/

/-- The verdict that the checks give for the expression `v` as solution of the recurrence of the object: this does not look at
the solutions stored in the object. -/
def verdictOn (C : Checks) (rhs : Expr) (info : Info) (ics : ICMap) (v : Expr) : VResult :=
  match info.ty with
  | .orderZero | .linConst | .linVar => .of (C.finite rhs info ics v false)
  | .nonLinear => if C.finite rhs info ics v false = some .inconclusive then .of (C.assoc rhs info)
      else .of (C.finite rhs info ics v false)
  | .weighted => if C.weighted rhs info ics v = .inconclusive then .of (C.assoc rhs info)
      else .verdict (C.weighted rhs info ics v)
  | .functional => .verdict .inconclusive
  | .unknown | .maxFn => .internalError

theorem verifyExact_subject (C : Checks) {s : RecState} {x v : Expr} (hx : s.exact = some x)
    (h1 : s.subjectFinite = v) (h2 : s.subjectWeighted = v) :
    verifyExact C s false = verdictOn C s.rhs s.info s.ics v := by
  unfold verifyExact verdictOn
  rw [if_neg (by rw [hx]; simp), h1, h2]
  cases s.info.ty <;> simp

/-- After a reading of the exact solution the object verifies what was read. -/
theorem read_subject {e : Expr} {s : RecState} (h : RecReach E e s) {v : Expr} (hv : (query E .exact s).2 = some v) :
    ∃ x, (query E .exact s).1.exact = some x ∧ (query E .exact s).1.subjectFinite = v ∧
      (query E .exact s).1.subjectWeighted = v ∧ (query E .exact s).1.rhs = s.rhs ∧ (query E .exact s).1.info = s.info ∧
      (query E .exact s).1.ics = s.ics := by
  have hne := noEv_reach h
  simp only [query] at hv ⊢
  cases hx : s.exact with
  | none => rw [getExact_none hx] at hv; cases hv
  | some x =>
    rw [getExact_some hx] at hv ⊢
    by_cases hi : s.ics = []
    · rw [if_pos hi] at hv ⊢
      obtain rfl : E.rename x = v := Option.some.inj hv
      refine ⟨E.rename x, rfl, ?_, ?_, rfl, rfl, rfl⟩
      · show (if s.ics = [] then _ else _) = _
        rw [if_pos hi]; rfl
      · show s.evExact.getD _ = _
        rw [hne hi]; rfl
    · rw [if_neg hi] at hv ⊢
      by_cases he : s.evExact.isSome
      · rw [if_pos he] at hv ⊢
        have hv : s.evExact = some v := hv
        refine ⟨x, hx, ?_, ?_, rfl, rfl, rfl⟩
        · show (if s.ics = [] then _ else s.evExact.getD _) = _
          rw [if_neg hi, hv]; rfl
        · show s.evExact.getD _ = _
          rw [hv]; rfl
      · rw [if_neg he] at hv ⊢
        have hv := Option.some.inj hv
        refine ⟨x, hx, ?_, ?_, rfl, rfl, rfl⟩
        · show (if s.ics = [] then _ else _) = _
          rw [if_neg hi]
          exact hv
        · exact hv

/-- **C142 (partial: the answer has been read), all types.**  After any history of calls, and for all checks, the verdict given
right after the exact solution was read is the verdict on the expression that was read, for the recurrence, the classification
and the initial conditions of the object at that moment. -/
theorem C142_verdict_on_answer_partial (C : Checks) {e : Expr} {s : RecState} (h : RecReach E e s) {v : Expr}
    (hv : (query E .exact s).2 = some v) :
    verifyExact C (query E .exact s).1 false = verdictOn C s.rhs s.info s.ics v := by
  obtain ⟨x, h1, h2, h3, h4, h5, h6⟩ := read_subject h hv
  rw [verifyExact_subject C h1 h2 h3, h4, h5, h6]

/-- **C142 (partial: without initial conditions, or evaluated).**  Also before the reading the verdict is about the expression
the next reading gives, up to the renaming of the system-generated symbols. -/
theorem C142_unread_partial (C : Checks) {e : Expr} {s : RecState} (h : RecReach E e s) {v : Expr}
    (hv : (query E .exact s).2 = some v) (hev : s.ics = [] ∨ s.evExact ≠ none) :
    ∃ u, verifyExact C s false = verdictOn C s.rhs s.info s.ics u ∧ (v = u ∨ v = E.rename u) := by
  have hne := noEv_reach h
  simp only [query] at hv
  cases hx : s.exact with
  | none => rw [getExact_none hx] at hv; cases hv
  | some x =>
    rw [getExact_some hx] at hv
    by_cases hi : s.ics = []
    · rw [if_pos hi] at hv
      refine ⟨x, verifyExact_subject C hx ?_ ?_, Or.inr (Option.some.inj hv).symm⟩
      · show (if s.ics = [] then s.exact.getD _ else _) = _
        rw [if_pos hi, hx]; rfl
      · show s.evExact.getD (s.exact.getD _) = _
        rw [hne hi, hx]; rfl
    · rcases hev with hev | hev
      · exact absurd hev hi
      · obtain ⟨w, hw⟩ := Option.ne_none_iff_exists'.mp hev
        rw [if_neg hi, hw] at hv
        have hv : some w = some v := hv
        refine ⟨w, verifyExact_subject C hx ?_ ?_, Or.inl (Option.some.inj hv).symm⟩
        · show (if s.ics = [] then _ else s.evExact.getD _) = _
          rw [if_neg hi, hw]; rfl
        · show s.evExact.getD _ = _
          rw [hw]; rfl

/-- **C142 (partial: no initial conditions), bounds.**  For a functional equation without an exact solution the verdict given
right after a bound was read is the verdict on the bound that was read, as a bound of the same kind. -/
theorem C142_bound_partial (C : Checks) (s : RecState) (ht : s.info.ty = .functional) (hx : s.exact = none) (hi : s.ics = [])
    {v : Expr} :
    ((query E .lower s).2 = some v → verifyLower C (query E .lower s).1 = .verdict (C.bound .lower s.rhs s.info v)) ∧
    ((query E .upper s).2 = some v → verifyUpper C (query E .upper s).1 = .verdict (C.bound .upper s.rhs s.info v)) := by
  constructor <;> intro hv <;> simp only [query] at hv ⊢
  · cases hl : s.lower with
    | none => rw [getLower_none hl] at hv; cases hv
    | some l =>
      rw [getLower_some hl, if_pos hi] at hv ⊢
      obtain rfl : E.rename l = v := Option.some.inj hv
      unfold verifyLower
      exact (if_neg (not_not.mpr hx)).trans (if_pos ht)
  · cases hl : s.upper with
    | none => rw [getUpper_none hl] at hv; cases hv
    | some l =>
      rw [getUpper_some hl, if_pos hi] at hv ⊢
      obtain rfl : E.rename l = v := Option.some.inj hv
      unfold verifyUpper
      exact (if_neg (not_not.mpr hx)).trans (if_pos ht)

/-- The hypotheses are met: an equation `x(n) = 2 x(n/2)` whose lower bound was computed and read. -/
example : ∃ (E : Engine) (s : RecState), RecReach E (.mul [.num 2, .fn .x [.mul [.num (1 / 2), .sym "n"]]]) s ∧
    s.info.ty = .functional ∧ s.exact = none ∧ s.ics = [] ∧ (query E .lower s).2 = some (.sym "n") :=
  ⟨⟨fun e => (.success, ⟨.functional, 1, 1, 2⟩, e), fun _ _ _ => .error .tooComplex, fun _ _ _ => .ok (.sym "n"),
    fun _ _ _ x => x, id⟩, _, .step .computeLower .new, rfl, rfl, rfl, rfl⟩

/-- **C142.**  The three verification methods throw `std::logic_error` exactly when the corresponding query does. -/
theorem C142_throws (C : Checks) (s : RecState) :
    (verifyExact C s false = .logicError ↔ (query E .exact s).2 = none) ∧
    (verifyLower C s = .logicError ↔ (query E .exact s).2 = none ∧ (query E .lower s).2 = none) ∧
    (verifyUpper C s = .logicError ↔ (query E .exact s).2 = none ∧ (query E .upper s).2 = none) := by
  have of_ne : ∀ o, VResult.of o ≠ .logicError := fun o => by cases o <;> simp [VResult.of]
  have hx : verifyExact C s false = .logicError ↔ s.exact = none := by
    unfold verifyExact
    by_cases h : s.exact = none
    · simp [h]
    · rw [if_neg h]
      refine ⟨fun h1 => ?_, fun h1 => absurd h1 h⟩
      cases hty : s.info.ty <;> rw [hty] at h1 <;> simp [of_ne] at h1 <;> split at h1 <;> simp [of_ne] at h1
  have q := fun w => query_none_iff (E := E) w s
  refine ⟨?_, ?_, ?_⟩
  · rw [hx, q .exact]; rfl
  · rw [q .exact, q .lower]
    show _ ↔ s.exact = none ∧ s.lower = none
    unfold verifyLower
    by_cases h : s.exact = none
    · simp only [h, ne_eq, not_true_eq_false, if_false, true_and]
      cases s.lower with
      | none => simp
      | some b => split_ifs with h' <;> simp at h' ⊢
    · simp [h, hx]
  · rw [q .exact, q .upper]
    show _ ↔ s.exact = none ∧ s.upper = none
    unfold verifyUpper
    by_cases h : s.exact = none
    · simp only [h, ne_eq, not_true_eq_false, if_false, true_and]
      cases s.upper with
      | none => simp
      | some b => split_ifs with h' <;> simp at h' ⊢
    · simp [h, hx]

/-! ## What a positive verdict means -/

section
variable {K : Type} [Field K] [CharZero K] {I : Interp K} {R : Verify.Rec} {O : Oracle} {ρ : String → K} {a : ℕ → ℕ → K}

/-- The check `verify_finite_order` of the recurrence of the object `s` is that of the record `R` with the oracle `O`. -/
structure ChecksAre (C : Checks) (s : RecState) (R : Verify.Rec) (O : Oracle) : Prop where
  rhs : R.rhs = s.rhs
  order : R.order = s.info.order
  first : R.first = s.info.first
  ics : R.ics = s.ics
  finite : ∀ v p, C.finite s.rhs s.info s.ics v p = verifyFiniteOrder R O v p

theorem verdictOn_linear {C : Checks} {s : RecState} (hC : ChecksAre C s R O)
    (hty : s.info.ty = .linConst ∨ s.info.ty = .linVar) {v : Expr}
    (h : verdictOn C s.rhs s.info s.ics v = .verdict .correct) : verifyFiniteOrder R O v false = some (yes false) := by
  unfold verdictOn at h
  rw [hC.finite] at h
  rcases hty with hty | hty <;> rw [hty] at h <;> simp only at h <;>
    (cases hq : verifyFiniteOrder R O v false with
      | none => rw [hq] at h; simp [VResult.of] at h
      | some w => rw [hq] at h; simp only [VResult.of, VResult.verdict.injEq] at h; rw [h]; rfl)

/-- **C142 (partial: as for C40, and the answer has been read), symbolic initial conditions.**  After any history of calls on
the object of a linear recurrence: if the exact solution was read and the verification answers `PROVABLY_CORRECT`, the answer has
the value of every solution of the recurrence, at every index from the first valid one on. -/
theorem C142_symbolic_partial {C : Checks} {e : Expr} {s : RecState} (h : RecReach E e s) (hC : ChecksAre C s R O)
    (hty : s.info.ty = .linConst ∨ s.info.ty = .linVar) (hO : OracleOk I R O ρ) (hR : RecOk I R ρ a) (hic : s.ics = [])
    {v : Expr} (hv : (query E .exact s).2 = some v) (hs : Candidate R.n R.first R.order v)
    (hcl : R.constCoeff = true → CandidateInClass I R O ρ v)
    (hok : verifyExact C (query E .exact s).1 false = .verdict .correct) :
    IsSolution I R.n s.rhs ρ v s.info.first s.info.order := by
  rw [C142_verdict_on_answer_partial C h hv] at hok
  have := Verify.C40_solution_partial hO hR (hC.ics.trans hic) hs hcl (verdictOn_linear hC hty hok)
  rwa [hC.rhs, hC.first, hC.order] at this

/-- **C142 (partial: as for C40, and the answer has been read), given initial conditions.**  The answer has the value of every
solution of the recurrence that takes the given values. -/
theorem C142_evaluated_partial {C : Checks} {e : Expr} {s : RecState} (h : RecReach E e s) (hC : ChecksAre C s R O)
    (hty : s.info.ty = .linConst ∨ s.info.ty = .linVar) (hO : OracleOk I R O ρ) (hR : RecOk I R ρ a) (hic : s.ics ≠ [])
    {v : Expr} (hv : (query E .exact s).2 = some v) (hs : hasX v = false ∧ OrderRed.idxNe R.n v = true)
    (hcl : R.constCoeff = true → InClass I R O ρ v true)
    (hok : verifyExact C (query E .exact s).1 false = .verdict .correct) (X : K → K)
    (hX : SolvesAt I R.n s.rhs ρ X (s.info.first + s.info.order))
    (hX0 : ∀ i < s.info.order, ∀ t : K, eval (withX I X) (update ρ R.n t) (Verify.getIC s.ics (firstIC R + i))
      = X ((firstIC R + i : ℕ) : K)) (N : ℕ) (hN : firstIC R ≤ N) :
    eval (withX I X) (update ρ R.n N) v = X N := by
  rw [C142_verdict_on_answer_partial C h hv] at hok
  refine Verify.C40_evaluated_solution_partial hO hR (by rw [hC.ics]; exact hic) hs hcl (verdictOn_linear hC hty hok) X
    (by rw [hC.rhs, hC.first, hC.order]; exact hX) (by rw [hC.order, hC.ics]; exact hX0) N hN

end

/-! ## Verified before it was read -/

/-- `x(n) = x(n - 1)` with the given initial conditions. -/
def constIC (m : ICMap) : Verify.Rec := { Verify.recConst with ics := m }

/-- An engine that solves `x(n) = x(n - 1)`; `sol` is the symbolic solution and `val` what it is for a given `x(0)`. -/
def constEngine (sol : Expr) (val : Expr → Expr) : Engine where
  classify := fun e => (.success, ⟨.linConst, 1, 0, 0⟩, e)
  solve := fun _ _ _ => .ok sol
  bound := fun _ _ _ => .error .tooComplex
  onIC := fun _ _ m e => match m with
    | [(_, v)] => val v
    | _ => e
  rename := id

/-- The checks for `x(n) = x(n - 1)`, without any simplification. -/
def constChecks : Checks where
  finite := fun _ _ m v p => verifyFiniteOrder (constIC m) idOracle v p
  weighted := fun _ _ _ _ => .inconclusive
  assoc := fun _ _ => none
  bound := fun _ _ _ _ => .inconclusive

/-- The object after `compute_exact_solution()` and `set_initial_conditions(x(0) = q)`. -/
def unread (sol : Expr) (val : Expr → Expr) (q : ℚ) : RecState :=
  ((RecState.new (xDec "n" 1)).step (constEngine sol val) .computeExact).step (constEngine sol val) (.setICs [(0, .num q)])

theorem unread_reach (sol : Expr) (val : Expr → Expr) (q : ℚ) : RecReach (constEngine sol val) (xDec "n" 1) (unread sol val q) :=
  .step _ (.step _ .new)

theorem const_newDiff (q w : ℚ) (b : Bool) : Verify.newDiff (constIC [(0, .num q)]) idOracle b (.num w) = .num 0 := by
  have hh : has (xDec "n" 1) (xDec "n" 1) = true := by rw [has.eq_def]; simp
  have hs : ∀ r, Verify.subX (xDec "n" 1) r (xDec "n" 1) = r := by intro r; rw [Verify.subX.eq_def]; simp
  have hr : subE (constIC [(0, .num q)]).rhs (constIC [(0, .num q)]).inhom = xDec "n" 1 := by
    simp [subE, negE, constIC, Verify.recConst, recOne, xDec, addE, mulE]
  have e1 : (List.range' 1 (constIC [(0, .num q)]).order).reverse = [1] := rfl
  unfold Verify.newDiff
  have hrr : (if b = true then (constIC [(0, .num q)]).rhs else subE (constIC [(0, .num q)]).rhs (constIC [(0, .num q)]).inhom)
      = xDec "n" 1 := by
    rw [hr]; cases b <;> rfl
  simp only [hrr, e1]
  simp only [Verify.substLoop, List.foldl, show (constIC [(0, .num q)]).n = "n" from rfl, hh, if_true, hs, substitute]
  simp [subE, negE, addE, mulE, idOracle]

theorem const_verdict (q v : ℚ) : verifyFiniteOrder (constIC [(0, .num q)]) idOracle (.num v) false
    = some (if v = q then .correct else .inconclusive) := by
  have hn : ∀ (w : ℚ) (b : Bool), Verify.newMethod (constIC [(0, .num q)]) idOracle (.num w) b = some true := by
    intro w b
    unfold Verify.newMethod
    rw [if_neg (by simp [constIC, Verify.recConst, recOne])]
    simp only [const_newDiff, if_true]
  have hic : ¬ (constIC [(0, .num q)]).ics = [] := by simp [constIC]
  unfold verifyFiniteOrder
  rw [if_neg (by simp [constIC, Verify.recConst, recOne]), if_neg (fun h => hic h.2)]
  unfold Verify.verifySolution
  have hsp : Verify.splitSolution (constIC [(0, .num q)]).n (decide ((constIC [(0, .num q)]).ics = [])) (.num v) = (.num 0, .num v) := by
    simp [Verify.splitSolution, hic]
  have hv : Verify.validateValues (constIC [(0, .num q)]) idOracle (.num v) = decide (v = q) := by
    simp [Verify.validateValues, constIC, Verify.recConst, recOne, Verify.maxIC, Verify.at', idOracle, substitute, Verify.getIC,
      List.range_succ, List.lookup]
  rw [hsp]
  simp only [hic, and_false, if_false, Option.bind_some, hv]
  by_cases hvq : v = q
  · simp only [hvq, decide_true, if_true]
    rw [show List.replicate (constIC [(0, .num q)]).order (Expr.num 0) = [.num 0] from rfl]
    have h3 : Verify.step3 (constIC [(0, .num q)]) idOracle [.num 0] (.num 0) = some true := by
      unfold Verify.step3
      simp only [show (constIC [(0, .num q)]).order / (constIC [(0, .num q)]).gcd = 1 by simp [constIC, Verify.recConst, recOne]]
      simp [show (constIC [(0, .num q)]).constCoeff = true from rfl, show (constIC [(0, .num q)]).mults = some [1] from rfl, hn]
    unfold Verify.steps34
    rw [h3]
    simp [hic, show (constIC [(0, .num q)]).constCoeff = true from rfl, hn, yes]
  · simp [hvq]

theorem unread_verdict (sol : Expr) (val : Expr → Expr) (q : ℚ) :
    verifyExact constChecks (unread sol val q) false = .verdict (if q = 0 then .correct else .inconclusive) := by
  have h : verifyExact constChecks (unread sol val q) false = .of (verifyFiniteOrder (constIC [(0, .num q)]) idOracle (.num 0) false) := rfl
  rw [h, const_verdict]
  simp [VResult.of, eq_comm]

theorem read_verdict (sol : Expr) (q : ℚ) :
    verifyExact constChecks (query (constEngine sol id) .exact (unread sol id q)).1 false = .verdict .correct := by
  have h : verifyExact constChecks (query (constEngine sol id) .exact (unread sol id q)).1 false
      = .of (verifyFiniteOrder (constIC [(0, .num q)]) idOracle (.num q) false) := rfl
  rw [h, const_verdict]
  simp [VResult.of]

/-- **C142 is false of the code**: when initial conditions are set after the solution was computed and the answer was not read
yet, the expression that is verified is zero.  For `x(n) = x(n - 1)`, `x(0) = 5` the answer is `5`, which the program verifies
once it was read; before, the same verification of the same object does not confirm it. -/
theorem C142_unread_verdict_refuted : ∃ (E : Engine) (C : Checks) (e : Expr) (s : RecState), RecReach E e s ∧
    (query E .exact s).2 = some (.num 5) ∧ verifyExact C s false = .verdict .inconclusive ∧
    verifyExact C (query E .exact s).1 false = .verdict .correct :=
  ⟨constEngine (xAt 0) id, constChecks, _, unread (xAt 0) id 5, unread_reach .., rfl,
    by rw [unread_verdict]; norm_num, read_verdict ..⟩

/-- **C142 is false of the code**: for the same reason a wrong answer is `PROVABLY_CORRECT`.  If `n` is the answer for
`x(n) = x(n - 1)`, `x(0) = 0`, the verification before the answer is read confirms it; all simplifications are correct and the
recurrence is as required by `C142_evaluated_partial`. -/
theorem C142_unread_wrong_refuted : ∃ (E : Engine) (C : Checks) (e : Expr) (s : RecState) (R : Verify.Rec) (O : Oracle) (a : ℕ → ℕ → ℝ),
    RecReach E e s ∧ ChecksAre C s R O ∧ s.info.ty = .linConst ∧ s.ics = [(0, .num 0)] ∧
    (query E .exact s).2 = some (.sym "n") ∧ verifyExact C s false = .verdict .correct ∧ ∀ ρ : String → ℝ,
    OracleOk (realInterp 0) R O ρ ∧ RecOk (realInterp 0) R ρ a ∧ ∃ X : ℝ → ℝ,
      SolvesAt (realInterp 0) R.n s.rhs ρ X (s.info.first + s.info.order) ∧ X 0 = 0 ∧
      eval (withX (realInterp 0) X) (update ρ R.n ((1 : ℕ) : ℝ)) (.sym "n") ≠ X 1 := by
  refine ⟨constEngine (.sym "n") fun _ => .sym "n", constChecks, _, unread (.sym "n") (fun _ => .sym "n") 0,
    constIC [(0, .num 0)], idOracle, fun _ _ => 1, unread_reach .., ⟨rfl, rfl, rfl, rfl, fun _ _ => rfl⟩, rfl, rfl, rfl,
    by rw [unread_verdict]; simp, fun ρ => ⟨⟨Verify.keeps_id .., Verify.keeps_id .., Verify.keeps_id .., Verify.keeps_id ..⟩, ?_, ?_⟩⟩
  · have h := Verify.recConst_ok ρ
    exact ⟨h.1, h.2, h.3, h.4, h.5, h.6, h.7, h.8⟩
  · refine ⟨fun _ => 0, fun N _ => ?_, rfl, ?_⟩
    · show _ = eval _ _ (xDec "n" 1)
      simp only [xDec]
      rw [OrderRed.eval_x]
    · simp [eval, constIC, Verify.recConst, recOne]

/-- The hypotheses of `C142_evaluated_partial` for `x(n) = x(n - 1)`, `x(0) = 5` and the answer `5`. -/
example (ρ : String → ℝ) : RecReach (constEngine (xAt 0) id) (xDec "n" 1) (unread (xAt 0) id 5) ∧
    ChecksAre constChecks (unread (xAt 0) id 5) (constIC [(0, .num 5)]) idOracle ∧ (unread (xAt 0) id 5).info.ty = .linConst ∧
    OracleOk (realInterp 0) (constIC [(0, .num 5)]) idOracle ρ ∧ RecOk (realInterp 0) (constIC [(0, .num 5)]) ρ (fun _ _ => 1) ∧
    (unread (xAt 0) id 5).ics ≠ [] ∧ (query (constEngine (xAt 0) id) .exact (unread (xAt 0) id 5)).2 = some (.num 5) ∧
    InClass (realInterp 0) (constIC [(0, .num 5)]) idOracle ρ (.num 5) true ∧
    verifyExact constChecks (query (constEngine (xAt 0) id) .exact (unread (xAt 0) id 5)).1 false = .verdict .correct := by
  refine ⟨unread_reach .., ⟨rfl, rfl, rfl, rfl, fun _ _ => rfl⟩, rfl,
    ⟨Verify.keeps_id .., Verify.keeps_id .., Verify.keeps_id .., Verify.keeps_id ..⟩, ?_, List.cons_ne_nil _ _, rfl, ?_, read_verdict ..⟩
  · have h := Verify.recConst_ok ρ
    exact ⟨h.1, h.2, h.3, h.4, h.5, h.6, h.7, h.8⟩
  · intro u hu c hc
    rw [const_newDiff] at hu
    have hu : u = [.num 0] := by
      simpa [Verify.cells, Verify.cell, Verify.addAt, addE, Verify.degOf, Verify.maxMult, constIC, Verify.recConst, recOne, eq_comm] using hu
    subst hu
    obtain rfl : c = .num 0 := by simpa using hc
    exact ⟨fun _ => 0, fun _ => 0, fun r => by simp [Verify.valAt, eval]⟩

end Purrs
