import Verif.Model.FirstIndex
import Verif.Props.Functional
import Verif.Props.Classify

/-!
# The recurrence can be used from the first valid index on (C150)
-/

set_option linter.unusedSectionVars false

namespace Purrs.FirstIndex

open Purrs.Functional Purrs.Bounds
open Purrs.Classify (St classify)
open Function (update)

/-- What `find_domain_in_N` is given: numerator and denominator are numbers different from 0 or polynomials in `n` with rational coefficients
all of whose natural zeros are found. -/
def Searched (ξ : ℝ → ℝ) (ρ : String → ℝ) (n : String) (E : Env) (e : Expr) : Prop :=
  ∀ p, p = E.num e ∨ p = E.den e → (has (.sym n) p = false ∧ eval (realInterp ξ) ρ p ≠ 0) ∨
    (has (.sym n) p = true ∧ isPolynomial n p = true ∧ isRatPolynomial n p = true ∧ FindsZeros ξ ρ n E p)

/-- `z` is 0 or a root of one of the polynomials, rounded up. -/
def Needed (E : Env) (es : List Expr) (z : ℤ) : Prop :=
  z = 0 ∨ ∃ e ∈ es, ∃ p, (p = E.num e ∨ p = E.den e) ∧ ∃ rs, E.roots p = some rs ∧ ∃ r ∈ rs, z = ⌈r⌉

variable {ξ : ℝ → ℝ} {ρ : String → ℝ} {n : String} {E : Env} {fuel : ℕ}

theorem findDomain_spec {e : Expr} (h : Searched ξ ρ n E e) (z : ℤ) :
    (findDomain E n (fuel + 1) e z).1 = true ∧ z ≤ (findDomain E n (fuel + 1) e z).2 ∧
    (∀ m : ℕ, (findDomain E n (fuel + 1) e z).2 < m → val ξ ρ n (E.num e) m ≠ 0 ∧ val ξ ρ n (E.den e) m ≠ 0) ∧
    ((findDomain E n (fuel + 1) e z).2 = z ∨
      ∃ p, (p = E.num e ∨ p = E.den e) ∧ ∃ rs, E.roots p = some rs ∧ ∃ r ∈ rs, (findDomain E n (fuel + 1) e z).2 = ⌈r⌉) := by
  obtain ⟨h1, h2, h3⟩ := C58_fraction_partial ξ ρ n E fuel e z h
  refine ⟨h1, h2, h3, ?_⟩
  have key : ∀ p, p = E.num e ∨ p = E.den e → ∀ z, (exDom E n (fuel + 1) p z).1 = true ∧ ((exDom E n (fuel + 1) p z).2 = z ∨
      ∃ rs, E.roots p = some rs ∧ ∃ r ∈ rs, (exDom E n (fuel + 1) p z).2 = ⌈r⌉) := by
    intro p hp z
    rcases h p hp with ⟨k1, k2⟩ | ⟨k1, k2, k3, k4⟩
    · simp [exDom, k1]
    · obtain ⟨d1, -, -, d4⟩ := C58_polynomial_partial ξ ρ n E fuel p z k1 k2 k3 k4
      exact ⟨d1, d4⟩
  obtain ⟨a1, a2⟩ := key _ (.inl rfl) z
  obtain ⟨b1, b2⟩ := key _ (.inr rfl) (exDom E n (fuel + 1) (E.num e) z).2
  have e1 : (findDomain E n (fuel + 1) e z).2 = (exDom E n (fuel + 1) (E.den e) (exDom E n (fuel + 1) (E.num e) z).2).2 := by
    unfold findDomain bothDom
    rw [if_pos a1]
  rw [e1]
  rcases b2 with b2 | b2
  · rcases a2 with a2 | a2
    · left; rw [b2, a2]
    · right; rw [b2]; exact ⟨_, .inl rfl, a2⟩
  · right; exact ⟨_, .inr rfl, b2⟩

theorem needed_mono {es es' : List Expr} (hs : ∀ e ∈ es, e ∈ es') {z : ℤ} (h : Needed E es z) : Needed E es' z :=
  h.imp id fun ⟨e, he, r⟩ => ⟨e, hs e he, r⟩

theorem needed_step {es : List Expr} {e : Expr} (he : e ∈ es) (h : Searched ξ ρ n E e) {z : ℤ} (hz : Needed E es z) :
    Needed E es (findDomain E n (fuel + 1) e z).2 := by
  rcases (findDomain_spec (fuel := fuel) h z).2.2.2 with k | ⟨p, hp, r⟩
  · rw [k]; exact hz
  · exact .inr ⟨e, he, p, hp, r⟩

/-- The expressions whose zeros the first valid index has to exceed, for a linear recurrence of finite order: the denominator of the
inhomogeneous term, and the coefficient if the order is 1 and it depends on `n`. -/
def relevant (den : Expr → Expr) (st : St) : List Expr :=
  (if st.inhom = .num 0 then [] else [den st.inhom]) ++ (if st.ty = .linVar ∧ st.order = 1 then [st.coeffs.getD 1 (.num 0)] else [])

/-- **C150** for linear recurrences (partial: for denominators and coefficients that are polynomials or quotients of polynomials with rational
coefficients whose roots are found; refuted without, and the logarithms in the inhomogeneous term are not looked at:
`C150_logarithm_refuted`).  A first valid index is found if there are no parameters; at every index at which the recurrence is used, `f + order` or
greater, the denominator of the inhomogeneous term and, for order 1, the numerator and the denominator of the coefficient are not 0; and `f` is not
greater than necessary. -/
theorem C150_linear_partial {st : St} {den : Expr → Expr}
    (hl : st.ty = .linConst ∨ st.ty = .linVar) (hpos : 0 < st.order)
    (hS : ∀ e ∈ relevant den st, Searched ξ ρ n E e) :
    ((firstIndex E den n (fuel + 1) st).isSome = true ↔ ∀ e ∈ relevant den st, hasParameters n e = false) ∧
    ∀ f, firstIndex E den n (fuel + 1) st = some f → Needed E (relevant den st) f ∧
      ∀ e ∈ relevant den st, ∀ N : ℕ, f + st.order ≤ N → val ξ ρ n (E.num e) N ≠ 0 ∧ val ξ ρ n (E.den e) N ≠ 0 := by
  have hfun : firstIndex E den n (fuel + 1) st
      = ((inhomDom E den n (fuel + 1) st 0).bind fun z => coeffDom E n (fuel + 1) st z).map Int.toNat := by
    unfold firstIndex
    rcases hl with hl | hl <;> rw [hl] <;> simp [hpos]
  rw [hfun]
  -- the first step
  have h1 : ((inhomDom E den n (fuel + 1) st 0).isSome = true ↔ (st.inhom ≠ .num 0 → hasParameters n (den st.inhom) = false)) ∧
      ∀ z, inhomDom E den n (fuel + 1) st 0 = some z → 0 ≤ z ∧ Needed E (relevant den st) z ∧ (st.inhom ≠ .num 0 → ∀ m : ℕ, z < m →
        val ξ ρ n (E.num (den st.inhom)) m ≠ 0 ∧ val ξ ρ n (E.den (den st.inhom)) m ≠ 0) := by
    unfold inhomDom
    by_cases h0 : st.inhom = .num 0
    · rw [if_pos h0]
      refine ⟨by simp [h0], fun z hz => ?_⟩
      rw [Option.some.injEq] at hz
      subst hz
      exact ⟨le_rfl, .inl rfl, fun h => absurd h0 h⟩
    · rw [if_neg h0]
      have hmem : den st.inhom ∈ relevant den st := by simp [relevant, h0]
      obtain ⟨s1, s2, s3, -⟩ := findDomain_spec (fuel := fuel) (hS _ hmem) 0
      by_cases hp : hasParameters n (den st.inhom) = true
      · rw [if_pos hp]
        refine ⟨by simp [hp, h0], fun z hz => ?_⟩
        cases hz
      · rw [if_neg hp, if_pos s1]
        refine ⟨by simp [hp], fun z hz => ?_⟩
        rw [Option.some.injEq] at hz
        subst hz
        exact ⟨s2, needed_step hmem (hS _ hmem) (.inl rfl), fun _ => s3⟩
  -- the second step
  have h2 : ∀ z, ((coeffDom E n (fuel + 1) st z).isSome = true ↔ (st.ty = .linVar ∧ st.order = 1 → hasParameters n (st.coeffs.getD 1 (.num 0)) = false)) ∧
      ∀ z', coeffDom E n (fuel + 1) st z = some z' → z ≤ z' ∧ (Needed E (relevant den st) z → Needed E (relevant den st) z') ∧
        (st.ty = .linVar ∧ st.order = 1 → ∀ m : ℕ, z' < m →
        val ξ ρ n (E.num (st.coeffs.getD 1 (.num 0))) m ≠ 0 ∧ val ξ ρ n (E.den (st.coeffs.getD 1 (.num 0))) m ≠ 0) := by
    intro z
    unfold coeffDom
    by_cases h0 : st.ty = .linVar ∧ st.order = 1
    · rw [if_pos h0]
      have hmem : st.coeffs.getD 1 (.num 0) ∈ relevant den st := by
        rw [relevant, if_pos h0]
        simp
      obtain ⟨s1, s2, s3, -⟩ := findDomain_spec (fuel := fuel) (hS _ hmem) z
      by_cases hp : hasParameters n (st.coeffs.getD 1 (.num 0)) = true
      · rw [if_pos hp]
        refine ⟨⟨fun h => by simp at h, fun h => by rw [h h0] at hp; cases hp⟩, fun z hz => ?_⟩
        cases hz
      · rw [if_neg hp, if_pos s1]
        refine ⟨⟨fun _ _ => by simpa using hp, fun _ => rfl⟩, fun z' hz => ?_⟩
        rw [Option.some.injEq] at hz
        subst hz
        exact ⟨s2, needed_step hmem (hS _ hmem), fun _ => s3⟩
    · rw [if_neg h0]
      refine ⟨by simp [h0], fun z' hz => ?_⟩
      rw [Option.some.injEq] at hz
      subst hz
      exact ⟨le_rfl, id, fun h => absurd h h0⟩
  have hmem : ∀ e, e ∈ relevant den st ↔ (st.inhom ≠ .num 0 ∧ e = den st.inhom) ∨ ((st.ty = .linVar ∧ st.order = 1) ∧ e = st.coeffs.getD 1 (.num 0)) := by
    intro e
    unfold relevant
    generalize st.coeffs.getD 1 (.num 0) = c
    by_cases c1 : st.inhom = .num 0 <;> by_cases c2 : st.ty = .linVar ∧ st.order = 1
    · rw [if_pos c1, if_pos c2]; simp [c1, c2]
    · rw [if_pos c1, if_neg c2]; simp [c1]; exact fun h1 h2 => absurd ⟨h1, h2⟩ c2
    · rw [if_neg c1, if_pos c2]; simp [c1, c2]
    · rw [if_neg c1, if_neg c2]; simp [c1]; exact fun h1 h2 => absurd ⟨h1, h2⟩ c2
  constructor
  · rw [Option.isSome_map]
    cases hi : inhomDom E den n (fuel + 1) st 0 with
    | none =>
      rw [hi] at h1
      simp only [Option.bind_none, Option.isSome_none, Bool.false_eq_true, false_iff]
      intro h
      have := h1.1.mpr fun hne => h _ ((hmem _).mpr (.inl ⟨hne, rfl⟩))
      simp at this
    | some z =>
      rw [hi] at h1
      rw [Option.bind_some, (h2 z).1]
      have h1' := h1.1.mp rfl
      constructor
      · intro h e he
        rcases (hmem e).mp he with ⟨k1, rfl⟩ | ⟨k1, rfl⟩
        · exact h1' k1
        · exact h k1
      · intro h k1
        exact h _ ((hmem _).mpr (.inr ⟨k1, rfl⟩))
  · intro f hf
    obtain ⟨z', hz', rfl⟩ := Option.map_eq_some_iff.mp hf
    obtain ⟨z, hz, hz2⟩ := Option.bind_eq_some_iff.mp hz'
    obtain ⟨a1, a2, a3⟩ := h1.2 z hz
    obtain ⟨b1, b2, b3⟩ := (h2 z).2 z' hz2
    have ht : ((z'.toNat : ℕ) : ℤ) = z' := Int.toNat_of_nonneg (le_trans a1 b1)
    refine ⟨by rw [ht]; exact b2 a2, fun e he N hN => ?_⟩
    have hlt : z' < N := by omega
    rcases (hmem e).mp he with ⟨k1, rfl⟩ | ⟨k1, rfl⟩
    · exact a3 k1 N (by omega)
    · exact b3 k1 N hlt

/-- **C150** for functional equations (partial: as for `C150_linear_partial`; the inhomogeneous term is not looked at:
`C150_functional_refuted`).  The first valid index is at least 1, and beyond it neither the numerator nor the denominator of a coefficient is 0. -/
theorem C150_functional_partial {st : St} {den : Expr → Expr} (hf : st.ty = .functional) (hS : ∀ t ∈ st.homog, Searched ξ ρ n E t.2) :
    ∃ f, firstIndex E den n (fuel + 1) st = some f ∧ 1 ≤ f ∧ (f = 1 ∨ Needed E (st.homog.map Prod.snd) f) ∧
      ∀ t ∈ st.homog, ∀ N : ℕ, f < N → val ξ ρ n (E.num t.2) N ≠ 0 ∧ val ξ ρ n (E.den t.2) N ≠ 0 := by
  have key : ∀ (l : List (ℚ × Expr)) (z : ℤ), (∀ t ∈ l, Searched ξ ρ n E t.2) → ∃ z', homogDom E n (fuel + 1) l z = some z' ∧ z ≤ z' ∧
      (z' = z ∨ Needed E (l.map Prod.snd) z') ∧ ∀ t ∈ l, ∀ N : ℕ, z' < N → val ξ ρ n (E.num t.2) N ≠ 0 ∧ val ξ ρ n (E.den t.2) N ≠ 0 := by
    intro l
    induction l with
    | nil => exact fun z _ => ⟨z, rfl, le_rfl, .inl rfl, by simp⟩
    | cons t l ih =>
      intro z hl
      obtain ⟨s1, s2, s3, s4⟩ := findDomain_spec (fuel := fuel) (hl t (by simp)) z
      obtain ⟨z', k1, k2, k3, k4⟩ := ih (findDomain E n (fuel + 1) t.2 z).2 fun a ha => hl a (by simp [ha])
      refine ⟨z', by rw [homogDom, if_pos s1]; exact k1, le_trans s2 k2, ?_, ?_⟩
      · rcases k3 with k3 | k3
        · rw [k3]
          rcases s4 with s4 | ⟨p, hp, r⟩
          · exact .inl s4
          · exact .inr (.inr ⟨t.2, by simp, p, hp, r⟩)
        · exact .inr (needed_mono (fun a ha => by rw [List.map_cons]; exact List.mem_cons_of_mem _ ha) k3)
      · intro a ha N hN
        rcases List.mem_cons.mp ha with rfl | ha
        · exact s3 N (lt_of_le_of_lt k2 hN)
        · exact k4 a ha N hN
  obtain ⟨z, h1, h2, h3, h4⟩ := key st.homog 0 hS
  refine ⟨(max z 1).toNat, ?_, ?_, ?_, ?_⟩
  · unfold firstIndex
    rw [hf]
    simp only [h1, Option.map_some]
  · omega
  · by_cases h : z ≤ 1
    · left; omega
    · right
      have e1 : (((max z 1).toNat : ℕ) : ℤ) = z := by omega
      rw [e1]
      exact h3.elim (fun h => .inl h) id
  · intro t ht N hN
    exact h4 t ht N (by omega)

/-! ### What is not looked at -/

/-- `log(n - 2)`. -/
def logTerm : Expr := .fn .log [.add [.sym "n", .num (-2)]]

/-- `x(n - 1) + log(n - 2)`. -/
def logRhs : Expr := .add [.fn .x [.add [.sym "n", .num (-1)]], logTerm]

/-- Numerator the expression itself, denominator 1. -/
def plainEnv : Env := ⟨id, fun _ => .num 1, fun _ => some []⟩

/-- **C150** fails for logarithms (the FIXME at src/rr_classifier.cc:1527): the recurrence `x(n) = x(n-1) + log(n-2)` is classified with first valid
index 0, but it is used for `n = 1` and `n = 2`, where the argument of the logarithm is not positive. -/
theorem C150_logarithm_refuted (ξ : ℝ → ℝ) (ρ : String → ℝ) (fuel : ℕ) : ∃ st, classify "n" 1000 logRhs = .ok st ∧ st.ty = .linConst ∧ st.order = 1 ∧
    st.inhom = logTerm ∧ firstIndex plainEnv (fun _ => .num 1) "n" (fuel + 1) st = some 0 ∧
    val ξ ρ "n" (.add [.sym "n", .num (-2)]) (0 + 1) < 0 ∧ val ξ ρ "n" (.add [.sym "n", .num (-2)]) (0 + 2) = 0 := by
  have d1 := Classify.getDecrement_mk "n" (-1) (by norm_num)
  have o1 : Classify.computeOrder 1000 (- -1) 0 = .ok (1, 1) := by rfl
  have h1 : Classify.summand "n" 1000 0 (.fn .x [.add [.sym "n", .num (-1)]]) Classify.initSt
      = .ok ⟨.linConst, .num 0, 1, [.num 0, .num 1], 1, []⟩ := by
    simp only [Classify.summand, Classify.findNonLinear, Classify.kindOf, Classify.single, Classify.singleX, d1, Classify.initSt, o1]
    simp [hasXOf, has, hasParameters, Classify.isAdd2, Classify.St.fresh, Classify.newGcd, Classify.insertCoeff]
  have h2 : Classify.summand "n" 1000 1 logTerm ⟨.linConst, .num 0, 1, [.num 0, .num 1], 1, []⟩
      = .ok ⟨.linConst, logTerm, 1, [.num 0, .num 1], 1, []⟩ := by
    simp [Classify.summand, Classify.findNonLinear, Classify.kindOf, Classify.single, Classify.isWeightedSum, Classify.addInhom, addE, logTerm, hasXOf]
  refine ⟨⟨.linConst, logTerm, 1, [.num 0, .num 1], 1, []⟩, ?_, rfl, rfl, rfl, ?_, ?_, ?_⟩
  · simp only [logRhs, Classify.classify, addends, Classify.loopFrom, h1, h2]
  · simp [firstIndex, inhomDom, coeffDom, logTerm, hasParameters, findDomain, bothDom, exDom, plainEnv, has]
  · simp [val, eval]
  · simp [val, eval]

/-- `1/(n - 3)`. -/
def poleTerm : Expr := .pow (.add [.sym "n", .num (-3)]) (.num (-1))

/-- **C150** fails for functional equations: the first valid index of `x(n) = x(n/2) + 1/(n-3)` is 1, but the inhomogeneous term has a pole at 3. -/
theorem C150_functional_refuted (ξ : ℝ → ℝ) (ρ : String → ℝ) (fuel : ℕ) :
    ∃ st, classify "n" 1000 (.add [Classify.xHalf, poleTerm]) = .ok st ∧ st.ty = .functional ∧ st.inhom = poleTerm ∧
    firstIndex plainEnv (fun _ => .add [.sym "n", .num (-3)]) "n" (fuel + 1) st = some 1 ∧
    val ξ ρ "n" (.add [.sym "n", .num (-3)]) 3 = 0 := by
  have hp : hasParameters "n" (.mul [.num (1/2), .sym "n"]) = false := by simp [hasParameters]
  have hh : has (.sym "n") (.mul [.num (1/2), .sym "n"]) = true := by simp [has]
  have hx : hasXOf (.sym "n") (.mul [.num (1/2), .sym "n"]) = false := by simp [hasXOf]
  have hn : (Expr.mul [.num (1/2), .sym "n"]) ≠ .sym "n" := by simp
  have hd := Classify.getDivisor_mk "n" (1/2) Classify.half_den (by norm_num)
  have h1 : Classify.summand "n" 1000 0 Classify.xHalf Classify.initSt = .ok ⟨.functional, .num 0, 0, [], 0, [(1 / (1/2), .num 1)]⟩ := by
    simp only [Classify.summand, Classify.xHalf, Classify.findNonLinear, Classify.kindOf, List.any_cons, List.any_nil, hx, Bool.or_false,
      Bool.false_eq_true, if_false, Classify.single, Classify.singleX, hn, hh, hp, Bool.not_true, Classify.isAdd2, Classify.isMul2, hd, if_true]
    simp [Classify.initSt, Classify.St.fresh, Classify.mapInsert]
  have h2 : Classify.summand "n" 1000 1 poleTerm ⟨.functional, .num 0, 0, [], 0, [(1 / (1/2), .num 1)]⟩
      = .ok ⟨.functional, poleTerm, 0, [], 0, [(1 / (1/2), .num 1)]⟩ := by
    simp [Classify.summand, Classify.findNonLinear, Classify.kindOf, Classify.single, Classify.isWeightedSum, Classify.addInhom, addE, poleTerm, hasXOf]
  refine ⟨⟨.functional, poleTerm, 0, [], 0, [(1 / (1/2), .num 1)]⟩, ?_, rfl, rfl, ?_, ?_⟩
  · simp only [Classify.classify, addends, Classify.loopFrom, h1, h2]
  · simp [firstIndex, homogDom, findDomain, bothDom, exDom, plainEnv, has]
  · simp [val, eval]

/-! ### A case -/

/-- Denominators 1; the roots of the two polynomials of the case. -/
def caseEnv : Env := ⟨id, fun _ => .num 1, fun e => if e = .add [.sym "n", .num (-3)] then some [3] else some [0]⟩

/-- What is found for `x(n) = n x(n-1) + 1/(n-3)`. -/
def caseSt : St := ⟨.linVar, poleTerm, 1, [.num 0, .sym "n"], 1, []⟩

/-- The hypotheses of `C150_linear_partial` are met: for `x(n) = n x(n-1) + 1/(n-3)` the first valid index is 3. -/
theorem C150_nonvacuous (ξ : ℝ → ℝ) (ρ : String → ℝ) (fuel : ℕ) :
    (∀ e ∈ relevant (fun _ => .add [.sym "n", .num (-3)]) caseSt, Searched ξ ρ "n" caseEnv e) ∧
    firstIndex caseEnv (fun _ => .add [.sym "n", .num (-3)]) "n" (fuel + 1) caseSt = some 3 := by
  constructor
  · intro e he
    have he' : e = .add [.sym "n", .num (-3)] ∨ e = .sym "n" := by
      simpa [relevant, caseSt, poleTerm] using he
    have h1 : has (.sym "n") (.num 1) = false ∧ eval (realInterp ξ) ρ (.num 1) ≠ 0 := ⟨by simp [has], by simp [eval]⟩
    rcases he' with rfl | rfl
    · rintro q (rfl | rfl)
      · right
        refine ⟨by simp [caseEnv, has], by simp [caseEnv, isPolynomial, isScalarRep], by simp [caseEnv, isRatPolynomial, isRatScalarRep], [3],
          by simp [caseEnv], fun m hm => ?_⟩
        have : (m : ℝ) + -3 = 0 := by simpa [val, caseEnv, eval] using hm
        have : (m : ℝ) = 3 := by linarith
        have : m = 3 := by exact_mod_cast this
        simp [this]
      · exact .inl h1
    · rintro q (rfl | rfl)
      · right
        refine ⟨by simp [caseEnv, has], by simp [caseEnv, isPolynomial], by simp [caseEnv, isRatPolynomial], [0], by simp [caseEnv], fun m hm => ?_⟩
        have : (m : ℝ) = 0 := by simpa [val, caseEnv, eval] using hm
        have : m = 0 := by exact_mod_cast this
        simp [this]
      · exact .inl h1
  · simp [firstIndex, inhomDom, coeffDom, caseSt, poleTerm, hasParameters, findDomain, bothDom, exDom, caseEnv, has, isPolynomial, isScalarRep, polyDom,
      isRatPolynomial, isRatScalarRep, raise]

end Purrs.FirstIndex
