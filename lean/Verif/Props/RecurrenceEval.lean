import Verif.Props.RecurrenceObj

/-!
# C46, C47, C60: evaluation, copies, first valid index for the solution
-/

namespace Purrs
open RecState

variable {E : Engine} {M : Type}

/-! ## C46 -/

/-- The answers of an object that matter for evaluation. -/
def SameEval (q : RecState → RecState × Option Expr) (s t : RecState) : Prop :=
  (q t).2 = (q s).2 ∧ (q t).1.info = (q s).1.info ∧ (q t).1.ics = (q s).1.ics

theorem evaluate_congr {q : RecState → RecState × Option Expr} {s t : RecState}
    (h : SameEval q s t) (x : ℤ) : (evaluate q t x).2 = (evaluate q s x).2 := by
  obtain ⟨h1, h2, h3⟩ := h
  unfold evaluate
  cases hs : q s with
  | mk s' a =>
    cases ht : q t with
    | mk t' b =>
      simp only [hs, ht] at h1 h2 h3
      subst h1
      cases b with
      | none => rfl
      | some e =>
        have hc : checkNumber t' x = checkNumber s' x := by
          unfold checkNumber; rw [h2, h3]
        have hm : maxIC t' = maxIC s' := by unfold maxIC; rw [h3]
        have hg : getIC t' x.toNat = getIC s' x.toNat := by unfold getIC; rw [h3]
        simp only [hc, h2, hm, hg]
        cases checkNumber s' x with
        | some r => rfl
        | none => simp only; split_ifs <;> rfl

theorem evaluate_state (q : RecState → RecState × Option Expr) (s : RecState) (x : ℤ) :
    (evaluate q s x).1 = (q s).1 := by
  unfold evaluate
  cases q s with
  | mk s' a =>
    cases a with
    | none => rfl
    | some e =>
      simp only
      cases checkNumber s' x with
      | some r => rfl
      | none => simp only; split_ifs <;> rfl

/-- Asking twice gives the same answer. -/
theorem query_idem (hr : ∀ e, E.rename (E.rename e) = E.rename e) (w : Which) (s : RecState) :
    SameEval (query E w) s (query E w s).1 := by
  unfold SameEval
  obtain ⟨cl, rhs, info, ex, lo, up, e1, e2, e3, tr, fs, ics⟩ := s
  cases w
  · cases ex with
    | none => exact ⟨rfl, rfl, rfl⟩
    | some x =>
      by_cases hi : ics = []
      · subst hi; simp [query, getExact, setFirstSol, hr]
      · cases e1 <;> simp [query, getExact, setFirstSol, hi]
  · cases lo with
    | none => exact ⟨rfl, rfl, rfl⟩
    | some x =>
      by_cases hi : ics = []
      · subst hi; simp [query, getLower, setFirstSol, hr]
      · cases e2 <;> simp [query, getLower, setFirstSol, hi]
  · cases up with
    | none => exact ⟨rfl, rfl, rfl⟩
    | some x =>
      by_cases hi : ics = []
      · subst hi; simp [query, getUpper, setFirstSol, hr]
      · cases e3 <;> simp [query, getUpper, setFirstSol, hi]

theorem SameEval.trans {q : RecState → RecState × Option Expr} {s t u : RecState}
    (h1 : SameEval q s t) (h2 : SameEval q t u) : SameEval q s u :=
  ⟨h2.1.trans h1.1, h2.2.1.trans h1.2.1, h2.2.2.trans h1.2.2⟩

theorem evalRangeLoop_spec (hr : ∀ e, E.rename (E.rename e) = E.rename e) (w : Which)
    (s : RecState) : ∀ (k : Nat) (t : RecState) (i : ℤ), SameEval (query E w) s t →
    ∀ s' vs o, evalRangeLoop (query E w) k t i = (s', vs, o) →
      vs.length ≤ k ∧
      (∀ j (hj : j < vs.length), (evaluate (query E w) s (i + j)).2 = .value vs[j]) ∧
      (o = none → vs.length = k) ∧
      (∀ r, o = some r → vs.length < k ∧ (evaluate (query E w) s (i + vs.length)).2 = r ∧
        ∀ v, r ≠ .value v) := by
  intro k
  induction k with
  | zero =>
    intro t i _ s' vs o h
    simp only [evalRangeLoop, Prod.mk.injEq] at h
    obtain ⟨-, rfl, rfl⟩ := h
    simp
  | succ k ih =>
    intro t i ht s' vs o h
    have he := evaluate_congr ht i
    have hst : SameEval (query E w) s (evaluate (query E w) t i).1 := by
      rw [evaluate_state]; exact ht.trans (query_idem hr w t)
    unfold evalRangeLoop at h
    cases hv : evaluate (query E w) t i with
    | mk t' r =>
      rw [hv] at he hst
      simp only at he hst
      cases r with
      | value v =>
        simp only [hv] at h
        cases hloop : evalRangeLoop (query E w) k t' (i + 1) with
        | mk s1 p =>
          obtain ⟨vs1, o1⟩ := p
          obtain ⟨i1, i2, i3, i4⟩ := ih t' (i + 1) hst s1 vs1 o1 hloop
          rw [hloop] at h
          simp only [Prod.mk.injEq] at h
          obtain ⟨-, rfl, rfl⟩ := h
          refine ⟨by simp; omega, ?_, ?_, ?_⟩
          · intro j hj
            cases j with
            | zero => simp only [Nat.cast_zero, add_zero, List.getElem_cons_zero]; exact he.symm
            | succ j =>
              have := i2 j (by simpa using hj)
              rw [List.getElem_cons_succ, ← this]
              congr 2
              push_cast; omega
          · intro ho; simp [i3 ho]
          · intro r hr'
            obtain ⟨a, b, c⟩ := i4 r hr'
            refine ⟨by simp; omega, ?_, c⟩
            rw [← b]
            congr 2
            simp only [List.length_cons]; push_cast; omega
      | _ =>
        simp only [hv, Prod.mk.injEq] at h
        obtain ⟨-, rfl, rfl⟩ := h
        refine ⟨by simp, by simp, by simp, ?_⟩
        intro r hr'
        simp only [Option.some.injEq] at hr'; subst hr'
        refine ⟨by simp, ?_, by simp⟩
        simpa using he.symm

/-- **C46.** A range evaluation that completes has output, in order, one value per index of
`[b, e)`, each being the evaluation at that index. -/
theorem C46_range_is_pointwise (hr : ∀ e, E.rename (E.rename e) = E.rename e) (w : Which)
    (s s' : RecState) (b e : ℤ) (vs : List Expr)
    (h : evalRange (query E w) s b e = (s', vs, none)) :
    b ≤ e ∧ (vs.length : ℤ) = e - b ∧
    ∀ j (hj : j < vs.length), (evaluate (query E w) s (b + j)).2 = .value vs[j] := by
  unfold evalRange at h
  split_ifs at h with hbe
  · simp at h
  · obtain ⟨-, h2, h3, -⟩ := evalRangeLoop_spec hr w s _ s b ⟨rfl, rfl, rfl⟩ _ _ _ h
    have := h3 rfl
    refine ⟨by omega, ?_, h2⟩
    rw [this]; omega

/-- **C46.** Conversely, if every index of the range can be evaluated the range evaluation
completes; and one that does not complete stops, with its exception, at the first index that cannot
be evaluated, having output the values of those before. -/
theorem C46_range_exception (hr : ∀ e, E.rename (E.rename e) = E.rename e) (w : Which)
    (s s' : RecState) (b e : ℤ) (hbe : b ≤ e) (vs : List Expr) (r : EvalResult)
    (h : evalRange (query E w) s b e = (s', vs, some r)) :
    (vs.length : ℤ) < e - b ∧ (evaluate (query E w) s (b + vs.length)).2 = r ∧
    (∀ v, r ≠ .value v) ∧
    ∀ j (hj : j < vs.length), (evaluate (query E w) s (b + j)).2 = .value vs[j] := by
  unfold evalRange at h
  rw [if_neg (by omega)] at h
  obtain ⟨-, h2, -, h4⟩ := evalRangeLoop_spec hr w s _ s b ⟨rfl, rfl, rfl⟩ _ _ _ h
  obtain ⟨a, c, d⟩ := h4 r rfl
  exact ⟨by omega, c, d, h2⟩

/-- **C46.** A reversed range is rejected, without any output. -/
theorem C46_reversed_rejected (w : Which) (s : RecState) (b e : ℤ) (h : e < b) :
    evalRange (query E w) s b e = (s, [], some .invalidArgument) := by
  unfold evalRange; rw [if_pos h]

theorem query_info_ics (w : Which) (s : RecState) :
    (query E w s).1.info = s.info ∧ (query E w s).1.ics = s.ics := by
  obtain ⟨cl, rhs, info, ex, lo, up, e1, e2, e3, tr, fs, ics⟩ := s
  cases w
  · cases ex with
    | none => exact ⟨rfl, rfl⟩
    | some x =>
      by_cases hi : ics = []
      · simp [query, getExact, setFirstSol, hi]
      · cases e1 <;> simp [query, getExact, setFirstSol, hi]
  · cases lo with
    | none => exact ⟨rfl, rfl⟩
    | some x =>
      by_cases hi : ics = []
      · simp [query, getLower, setFirstSol, hi]
      · cases e2 <;> simp [query, getLower, setFirstSol, hi]
  · cases up with
    | none => exact ⟨rfl, rfl⟩
    | some x =>
      by_cases hi : ics = []
      · simp [query, getUpper, setFirstSol, hi]
      · cases e3 <;> simp [query, getUpper, setFirstSol, hi]

/-- What `evaluate` returns, in terms of what the user sees: the query's answer, the type, the
conditions. -/
theorem evaluate_eq (w : Which) (s : RecState) (x : ℤ) : (evaluate (query E w) s x).2 =
    match (query E w s).2 with
    | none => .logicError
    | some e => match checkNumber s x with
      | some r => r
      | none => if s.info.ty = .orderZero then .value (substitute (.sym "n") (.num x) e)
        else if x ≤ (maxIC s : ℤ) then .value (getIC s x.toNat)
        else .value (substitute (.sym "n") (.num x) e) := by
  obtain ⟨hinf, hics⟩ := query_info_ics (E := E) w s
  unfold evaluate
  cases hq : query E w s with
  | mk s' a =>
    rw [hq] at hinf hics
    simp only at hinf hics
    cases a with
    | none => rfl
    | some e =>
      have hc : checkNumber s' x = checkNumber s x := by unfold checkNumber; rw [hinf, hics]
      have hm : maxIC s' = maxIC s := by unfold maxIC; rw [hics]
      have hg : getIC s' x.toNat = getIC s x.toNat := by unfold getIC; rw [hics]
      simp only [hc, hinf, hm, hg]
      cases checkNumber s x with
      | some r => rfl
      | none => simp only; split_ifs <;> rfl

theorem find_of_sorted {m : ICMap} (hs : m.Sorted) {k : Nat} {v : Expr} (h : (k, v) ∈ m) :
    m.find? (fun p => p.1 = k) = some (k, v) := by
  induction m with
  | nil => simp at h
  | cons p m ih =>
    unfold ICMap.Sorted at hs
    rw [List.pairwise_cons] at hs
    rw [List.find?_cons]
    rcases List.mem_cons.1 h with h | h
    · subst h; simp
    · have := hs.1 _ h
      simp only at this
      rw [decide_eq_false (by omega)]
      exact ih hs.2 h

theorem le_maxIC {s : RecState} (hs : s.ics.Sorted) {k : Nat} {v : Expr} (h : (k, v) ∈ s.ics) :
    k ≤ maxIC s := by
  unfold maxIC largestKey
  unfold ICMap.Sorted at hs
  obtain ⟨l, p, hl⟩ : ∃ l p, s.ics = l ++ [p] := by
    rcases List.eq_nil_or_concat s.ics with h' | ⟨l, p, h'⟩
    · rw [h'] at h; simp at h
    · exact ⟨l, p, by rw [h']; simp⟩
  rw [hl] at h hs ⊢
  rw [List.getLast?_append]
  simp only [List.getLast?_singleton, Option.some_or, Option.map_some, Option.getD_some]
  rw [List.mem_append] at h
  rcases h with h | h
  · have := (List.pairwise_append.1 hs).2.2 _ h p (by simp)
    simp only at this; omega
  · simp only [List.mem_singleton] at h; rw [← h]

/-- **C46.** At an index with an initial condition the evaluation is that condition (linear
recurrences of finite order and weighted averages). -/
theorem C46_initial_condition_value (w : Which) (s : RecState) (hs : s.ics.Sorted) (k : Nat)
    (v : Expr) (hk : (k, v) ∈ s.ics) (hq : (query E w s).2 ≠ none)
    (ht : s.info.ty = .linConst ∨ s.info.ty = .linVar ∨ s.info.ty = .weighted) :
    (evaluate (query E w) s k).2 = .value v := by
  have hf := find_of_sorted hs hk
  have hc : checkNumber s k = none := by
    unfold checkNumber
    rw [if_neg (by omega)]
    rcases ht with ht | ht | ht <;>
    · simp only [ht]
      rw [if_neg]
      rw [Int.toNat_natCast, hf]
      simp
  rw [evaluate_eq]
  obtain ⟨e, he⟩ := Option.ne_none_iff_exists'.1 hq
  rw [he, hc]
  simp only
  rw [if_neg (by rcases ht with ht | ht | ht <;> simp [ht]),
    if_pos (by have := le_maxIC hs hk; omega)]
  unfold getIC
  rw [Int.toNat_natCast, hf]

/-- **C46.** Indices before the first one allowed by the documentation are rejected: negative ones;
for a linear recurrence of order `k` valid from `j`, those below `j - k + 1`; for a weighted average
those not above `j`; unless there is an initial condition at that very index. -/
theorem C46_early_index_rejected (w : Which) (s : RecState) (x : ℤ) (hq : (query E w s).2 ≠ none)
    (h : x < 0 ∨ (∀ p ∈ s.ics, (p.1 : ℤ) ≠ x) ∧
      ((s.info.ty = .linConst ∨ s.info.ty = .linVar) ∧ x < s.info.first - s.info.order + 1 ∨
        s.info.ty = .weighted ∧ x ≤ s.info.first)) :
    (evaluate (query E w) s x).2 = .invalidArgument := by
  have hc : checkNumber s x = some .invalidArgument := by
    unfold checkNumber
    by_cases hx : x < 0
    · rw [if_pos hx]
    · rw [if_neg hx]
      obtain ⟨h1, h2⟩ := h.resolve_left hx
      have hf : (s.ics.find? (fun p => p.1 = x.toNat)).isNone := by
        rw [Option.isNone_iff_eq_none, List.find?_eq_none]
        intro p hp hpx
        simp only [decide_eq_true_eq] at hpx
        exact h1 p hp (by omega)
      rcases h2 with ⟨ht | ht, h2⟩ | ⟨ht, h2⟩
      · simp only [ht]; rw [if_pos]; refine ⟨?_, hf⟩; split_ifs <;> push_cast <;> omega
      · simp only [ht]; rw [if_pos]; refine ⟨?_, hf⟩; split_ifs <;> push_cast <;> omega
      · simp only [ht]; rw [if_pos]; exact ⟨h2, hf⟩
  rw [evaluate_eq]
  obtain ⟨e, he⟩ := Option.ne_none_iff_exists'.1 hq
  rw [he, hc]

/-- **C46.** All the other indices are accepted, and above the largest initial condition the value
is the answer of the query at `n = x`. -/
theorem C46_later_index_value (w : Which) (s : RecState) (x : ℤ) (e : Expr)
    (hq : (query E w s).2 = some e) (hx : 0 ≤ x) (hm : (maxIC s : ℤ) < x)
    (h : (s.info.ty = .linConst ∨ s.info.ty = .linVar) ∧ s.info.first - s.info.order + 1 ≤ x ∨
        s.info.ty = .weighted ∧ s.info.first < x) :
    (evaluate (query E w) s x).2 = .value (substitute (.sym "n") (.num x) e) := by
  have hc : checkNumber s x = none := by
    unfold checkNumber
    rw [if_neg (by omega)]
    rcases h with ⟨ht | ht, h2⟩ | ⟨ht, h2⟩
    · simp only [ht]; rw [if_neg]; rintro ⟨h3, -⟩; split_ifs at h3 <;> push_cast at h3 <;> omega
    · simp only [ht]; rw [if_neg]; rintro ⟨h3, -⟩; split_ifs at h3 <;> push_cast at h3 <;> omega
    · simp only [ht]; rw [if_neg]; rintro ⟨h3, -⟩; omega
  rw [evaluate_eq, hq, hc]
  simp only
  rw [if_neg (by rcases h with ⟨ht | ht, -⟩ | ⟨ht, -⟩ <;> simp [ht]), if_neg (by omega)]

/-- **C61 fails for recurrences of order zero**: `first_valid_index_for_solution()` is `j`, yet the
solution cannot be evaluated at `j`. -/
theorem C61_order_zero_refuted (s : RecState) (e : Expr) (ht : s.info.ty = .orderZero)
    (hi : s.ics = []) (hx : s.exact = some e) :
    firstValidForSolution (query E .exact s).1 = some s.info.first ∧
    (evaluate (query E .exact) s s.info.first).2 = .invalidArgument := by
  constructor
  · simp only [query]
    rw [getExact_some hx, if_pos hi]
    simp [firstValidForSolution, setFirstSol, hi, ht]
  · rw [evaluate_eq]
    have hq : (query E .exact s).2 = some (E.rename e) := by
      simp only [query]; rw [getExact_some hx, if_pos hi]
    have hc : checkNumber s s.info.first = some .invalidArgument := by
      unfold checkNumber
      rw [if_neg (by omega)]
      simp [ht, hi]
    rw [hq, hc]

/-- **C61 fails with conditions beyond the first valid index**: the documentation promises a numeric
expression once initial conditions are given; with `x(5) = v` as only condition of a recurrence of
order one the value at 3 is the symbol `x(3)`. -/
theorem C61_symbolic_value_refuted (s : RecState) (v : Expr)
    (ht : s.info = ⟨.linConst, 1, 0, 0⟩) (hi : s.ics = [(5, v)]) (hq : (query E .exact s).2 ≠ none) :
    Acceptable s.info s.ics ∧ (evaluate (query E .exact) s 3).2 = .value (.fn .x [.num 3]) := by
  constructor
  · rw [ht, hi]
    refine ⟨5, by simp [ICMap.keys], by simp [ICMap.keys], by simp, ?_⟩
    intro j hj
    simp only [Nat.lt_one_iff] at hj
    exact ⟨5, by simp [ICMap.keys], by omega⟩
  · rw [evaluate_eq]
    obtain ⟨e, he⟩ := Option.ne_none_iff_exists'.1 hq
    rw [he]
    have hc : checkNumber s 3 = none := by
      unfold checkNumber
      rw [ht, hi]
      simp
    rw [hc]
    simp [ht, maxIC, largestKey, hi, getIC]

theorem query_firstSol (w : Which) (s : RecState) (h : (query E w s).2 ≠ none) :
    (query E w s).1.firstSol = (setFirstSol s).firstSol ∧
    firstValidForSolution (query E w s).1 = some (setFirstSol s).firstSol := by
  have hk := keeps_query (E := E) w s w (by rw [Ne, ← query_none_iff (E := E)]; exact h)
  have h1 : (query E w s).1.firstSol = (setFirstSol s).firstSol := by
    obtain ⟨cl, rhs, info, ex, lo, up, e1, e2, e3, tr, fs, ics⟩ := s
    cases w
    · cases ex with
      | none => exact absurd rfl h
      | some x =>
        by_cases hi : ics = []
        · simp [query, getExact, setFirstSol, hi]
        · cases e1 <;> simp [query, getExact, setFirstSol, hi, maxIC]
    · cases lo with
      | none => exact absurd rfl h
      | some x =>
        by_cases hi : ics = []
        · simp [query, getLower, setFirstSol, hi]
        · cases e2 <;> simp [query, getLower, setFirstSol, hi, maxIC]
    · cases up with
      | none => exact absurd rfl h
      | some x =>
        by_cases hi : ics = []
        · simp [query, getUpper, setFirstSol, hi]
        · cases e3 <;> simp [query, getUpper, setFirstSol, hi, maxIC]
  refine ⟨h1, ?_⟩
  unfold firstValidForSolution
  rw [if_neg, h1]
  rintro ⟨a, b, c⟩
  cases w
  · exact hk a
  · exact hk b
  · exact hk c

/-- **C61 (partial: linear recurrences of order at least one and weighted averages).**  Every index
from `first_valid_index_for_solution()` on can be evaluated. -/
theorem C61_evaluable_partial (w : Which) (s : RecState) (x : ℤ) (hq : (query E w s).2 ≠ none)
    (ht : (s.info.ty = .linConst ∨ s.info.ty = .linVar) ∧ 1 ≤ s.info.order ∨
      s.info.ty = .weighted) (j : Nat) (hj : firstValidForSolution (query E w s).1 = some j)
    (hx : (j : ℤ) ≤ x) :
    ∃ v, (evaluate (query E w) s x).2 = .value v := by
  have h1 := (query_firstSol w s hq).2
  rw [hj, Option.some.injEq] at h1
  have hf : s.info.first ≤ j ∧ (s.info.ty = .weighted → s.info.first < j) := by
    rw [h1]
    unfold setFirstSol
    simp only
    constructor
    · split_ifs <;> omega
    · intro hw
      simp only [hw]
      split_ifs <;> simp_all <;> omega
  obtain ⟨e, he⟩ := Option.ne_none_iff_exists'.1 hq
  have hc : checkNumber s x = none := by
    unfold checkNumber
    rw [if_neg (by omega)]
    rcases ht with ⟨ht | ht, h2⟩ | ht
    · simp only [ht]; rw [if_neg]; rintro ⟨h3, -⟩; split_ifs at h3 <;> push_cast at h3 <;> omega
    · simp only [ht]; rw [if_neg]; rintro ⟨h3, -⟩; split_ifs at h3 <;> push_cast at h3 <;> omega
    · simp only [ht]; rw [if_neg]; rintro ⟨h3, -⟩; have := hf.2 ht; omega
  rw [evaluate_eq, he, hc]
  simp only
  split_ifs <;> exact ⟨_, rfl⟩

/-- A reachable object that meets the hypotheses of the theorems above, and its values: the
condition at 1, the formula afterwards, an exception at 0 when the range starts before. -/
theorem C46_example : ∃ s, RecReach demoEngine (.num 1) s ∧ s.ics = [(1, .num 3)] ∧
    s.info = ⟨.linConst, 1, 1, 0⟩ ∧ (query demoEngine .exact s).2 = some (.add [.num 3, .sym "n"]) ∧
    (∀ e, demoEngine.rename (demoEngine.rename e) = demoEngine.rename e) ∧
    (evalRange (query demoEngine .exact) s 1 3).2 =
      ([.num 3, substitute (.sym "n") (.num 2) (.add [.num 3, .sym "n"])], none) ∧
    (evalRange (query demoEngine .exact) s 0 3).2 = ([], some .invalidArgument) := by
  refine ⟨((RecState.new (.num 1)).step demoEngine (.setICs [(1, .num 3)])).step demoEngine
    .computeExact, .step _ (.step _ .new), rfl, rfl, rfl, fun _ => rfl, rfl, rfl⟩

/-! ## C47 -/

theorem core_copy {R : Reading E M} {e : Expr} {s : RecState} (h : Core R e s) :
    Core R e s.copy := by
  unfold RecState.copy
  constructor
  · exact h.cl
  · exact h.rhs
  · exact h.info
  · exact h.exact
  · exact h.lower
  · exact h.upper
  · exact h.lowEx
  · exact h.upEx
  · exact h.only
  · exact h.lowB
  · exact h.upB
  · intro _; exact ⟨rfl, rfl, rfl⟩
  · intro w hw; cases hw
  · intro w hw; cases hw
  · intro w hw; cases hw
  · exact h.maxIC

theorem core_reads {R : Reading E M} {e : Expr} {s : RecState} (h : Core R e s) (w : Which)
    {x v : Expr} (hx : cached w s = some x) (hv : (query E w s).2 = some v) :
    R.m v = if s.ics = [] then R.m x else R.m (E.onIC s.rhs s.info s.ics x) := by
  by_cases hi : s.ics = []
  · rw [if_pos hi]
    cases w <;> simp only [cached] at hx <;> simp only [query] at hv
    · rw [getExact_some hx, if_pos hi] at hv
      simp only [Option.some.injEq] at hv; subst hv; exact R.rename x
    · rw [getLower_some hx, if_pos hi] at hv
      simp only [Option.some.injEq] at hv; subst hv; exact R.rename x
    · rw [getUpper_some hx, if_pos hi] at hv
      simp only [Option.some.injEq] at hv; subst hv; exact R.rename x
  · rw [if_neg hi]
    cases w <;> simp only [cached] at hx <;> simp only [query] at hv
    · rw [getExact_some hx, if_neg hi] at hv
      split_ifs at hv
      · obtain ⟨y, h1, h2⟩ := h.evE v hv
        rw [hx] at h1; cases h1; exact h2
      · simp only [Option.some.injEq] at hv; subst hv; exact R.rename _
    · rw [getLower_some hx, if_neg hi] at hv
      split_ifs at hv
      · obtain ⟨y, h1, h2⟩ := h.evL v hv
        rcases h1 with h1 | h1
        · rw [hx] at h1; cases h1; exact h2
        · rw [h2]; exact R.onIC _ _ _ _ _ (h.lowEx x y hx h1).symm
      · simp only [Option.some.injEq] at hv; subst hv; exact R.rename _
    · rw [getUpper_some hx, if_neg hi] at hv
      split_ifs at hv
      · obtain ⟨y, h1, h2⟩ := h.evU v hv
        rcases h1 with h1 | h1
        · rw [hx] at h1; cases h1; exact h2
        · rw [h2]; exact R.onIC _ _ _ _ _ (h.upEx x y hx h1).symm
      · simp only [Option.some.injEq] at hv; subst hv; exact R.rename _

/-- Two answers (or exceptions) that read the same. -/
def SameAnswer (R : Reading E M) (a b : Option Expr) : Prop := a.map R.m = b.map R.m

/-- **C47 (the copy constructor).** After any history, a copy gives the same answers as the original
(a functional equation must have different bounds, see C43), has the same conditions, and throws in
the same cases. -/
theorem C47_copy_same_answers_partial (R : Reading E M) {e : Expr} {s : RecState}
    (h : RecReach E e s) (hf : BoundsDiffer R e) (w : Which) :
    SameAnswer R (query E w s.copy).2 (query E w s).2 ∧ s.copy.ics = s.ics := by
  refine ⟨?_, rfl⟩
  unfold SameAnswer
  have hcc : cached w s.copy = cached w s := by cases w <;> rfl
  cases hx : cached w s with
  | none =>
    rw [(query_none_iff (E := E) w s).2 hx, (query_none_iff (E := E) w s.copy).2 (hcc.trans hx)]
  | some x =>
    rcases reach_inv R h hf with h' | h'
    · exfalso
      obtain ⟨-, -, h1, h2, h3, -⟩ := h'
      cases w <;> simp only [cached] at hx
      · rw [h1] at hx; cases hx
      · rw [h2] at hx; cases hx
      · rw [h3] at hx; cases hx
    · have n1 : (query E w s).2 ≠ none := by rw [Ne, query_none_iff, hx]; simp
      have n2 : (query E w s.copy).2 ≠ none := by rw [Ne, query_none_iff, hcc, hx]; simp
      obtain ⟨v1, hv1⟩ := Option.ne_none_iff_exists'.1 n1
      obtain ⟨v2, hv2⟩ := Option.ne_none_iff_exists'.1 n2
      rw [hv1, hv2, Option.map_some, Option.map_some, core_reads h' w hx hv1,
        core_reads (core_copy h') w (hcc.trans hx) hv2]
      rfl

/-- **C47 fails for assignment.**  Whatever the engine: if the target of `t = y` has an evaluated
solution, the object keeps answering with it although its recurrence, solution and initial
conditions are now those of `y`. -/
theorem C47_assign_refuted (t y : RecState) (v x : Expr) (ht : t.evExact = some v)
    (hy : y.exact = some x) (hi : y.ics ≠ []) :
    (query E .exact (t.assign y)).2 = some v ∧ (t.assign y).ics = y.ics := by
  refine ⟨?_, rfl⟩
  simp only [query]
  rw [getExact_some (s := t.assign y) (x := x) hy, if_neg (show ¬ (t.assign y).ics = [] from hi)]
  have : (t.assign y).evExact = some v := ht
  simp [this]

/-- **C47 (partial: assignment to an object on which nothing was evaluated)** behaves like a copy. -/
theorem C47_assign_fresh_partial (t y : RecState) (h1 : t.evExact = none) (h2 : t.evLower = none)
    (h3 : t.evUpper = none) : t.assign y = y.copy := by
  unfold RecState.assign RecState.copy
  rw [h1, h2, h3]

/-- The hypotheses of `C47_assign_refuted` are met by two reachable objects, and the stale answer is
wrong. -/
theorem C47_example : ∃ t y x v, RecReach demoEngine (.num 1) t ∧ RecReach demoEngine (.num 1) y ∧
    t.evExact = some v ∧ y.exact = some x ∧ y.ics ≠ [] ∧
    (query demoEngine .exact y).2 ≠ some v := by
  refine ⟨((RecState.new (.num 1)).step demoEngine (.setICs [(1, .num 3)])).step demoEngine
    .computeExact, ((RecState.new (.num 1)).step demoEngine (.setICs [(1, .num 7)])).step demoEngine
    .computeExact, _, _, .step _ (.step _ .new), .step _ (.step _ .new), rfl, rfl, by decide, ?_⟩
  show some (Expr.add [.num 7, .sym "n"]) ≠ some (Expr.add [.num 3, .sym "n"])
  simp

/-! ### Destruction -/

/-- The four owned pointers of a `Recurrence` (src/Recurrence.defs.hh:1327-1330), `none` being null,
as addresses. -/
structure Owned where
  finiteOrder : Option Nat
  functional : Option Nat
  nonLinear : Option Nat
  weighted : Option Nat
  deriving DecidableEq

/-- The addresses of the live blocks. -/
abbrev Heap := List Nat

/-- `delete p`: nothing for a null pointer, undefined behaviour (`none`) if the block is not live. -/
def delete (h : Heap) : Option Nat → Option Heap
  | none => some h
  | some a => if a ∈ h then some (h.erase a) else none

/-- `~Recurrence()` (src/Recurrence.inlines.hh:119-124). -/
def destroy (h : Heap) (o : Owned) : Option Heap :=
  ((((delete h o.finiteOrder).bind fun h => delete h o.functional).bind
    fun h => delete h o.nonLinear).bind fun h => delete h o.weighted)

/-- The copy constructor and `operator=` copy the pointers (src/Recurrence.inlines.hh:72-116). -/
def copyOwned (o : Owned) : Owned := o

theorem delete_nodup {h h' : Heap} {p : Option Nat} (hn : h.Nodup) (hd : delete h p = some h') :
    h'.Nodup ∧ (∀ a ∈ h', a ∈ h) ∧ ∀ a, p = some a → a ∉ h' := by
  cases p with
  | none => simp only [delete, Option.some.injEq] at hd; subst hd; exact ⟨hn, fun _ h => h, by simp⟩
  | some a =>
    simp only [delete] at hd
    split_ifs at hd with ha
    simp only [Option.some.injEq] at hd; subst hd
    refine ⟨hn.erase a, fun b hb => List.mem_of_mem_erase hb, ?_⟩
    intro b hb
    simp only [Option.some.injEq] at hb; subst hb
    rw [hn.mem_erase_iff]; simp

theorem delete_dead {h : Heap} {a : Nat} (ha : a ∉ h) : delete h (some a) = none := by
  simp [delete, ha]

/-- **C47 fails for destruction.**  Destroying a classified recurrence (one with a non-null pointer)
and then its copy deletes a block twice. -/
theorem C47_double_delete_refuted (h h1 : Heap) (o : Owned) (hn : h.Nodup)
    (ho : o ≠ ⟨none, none, none, none⟩) (hd : destroy h o = some h1) :
    destroy h1 (copyOwned o) = none := by
  obtain ⟨p1, p2, p3, p4⟩ := o
  simp only [destroy, copyOwned, Option.bind_eq_some_iff] at hd ⊢
  obtain ⟨a3, ⟨a2, ⟨a1, d1, d2⟩, d3⟩, d4⟩ := hd
  obtain ⟨n1, m1, f1⟩ := delete_nodup hn d1
  obtain ⟨n2, m2, f2⟩ := delete_nodup n1 d2
  obtain ⟨n3, m3, f3⟩ := delete_nodup n2 d3
  obtain ⟨n4, m4, f4⟩ := delete_nodup n3 d4
  cases p1 with
  | some a => rw [delete_dead (fun h => f1 a rfl (m2 _ (m3 _ (m4 _ h))))]; rfl
  | none =>
    rw [show delete h1 none = some h1 from rfl]
    simp only [Option.bind_some]
    cases p2 with
    | some a =>
      rw [delete_dead (fun h => f2 a rfl (m3 _ (m4 _ h)))]
      rfl
    | none =>
      rw [show delete h1 none = some h1 from rfl]
      simp only [Option.bind_some]
      cases p3 with
      | some a =>
        rw [delete_dead (fun h => f3 a rfl (m4 _ h))]
        rfl
      | none =>
        rw [show delete h1 none = some h1 from rfl]
        simp only [Option.bind_some]
        cases p4 with
        | some a => exact delete_dead (fun h => f4 a rfl h)
        | none => exact absurd rfl ho

/-- **C47 (partial: before classification)** all pointers are null and destruction is safe. -/
theorem C47_destroy_unclassified_partial (h : Heap) :
    (destroy h ⟨none, none, none, none⟩).bind (fun h => destroy h (copyOwned ⟨none, none, none, none⟩))
      = some h := rfl

/-- A classified finite-order recurrence meets the hypotheses of `C47_double_delete_refuted`. -/
theorem C47_double_delete_example : ([17] : Heap).Nodup ∧
    (⟨some 17, none, none, none⟩ : Owned) ≠ ⟨none, none, none, none⟩ ∧
    destroy [17] ⟨some 17, none, none, none⟩ = some [] := by decide

/-! ## C60 -/

/-- The index from which the solution of a recurrence is valid: for finite order `k` it is the
smallest index of the last `k` consecutive conditions, if it is not below the first valid index; for
a weighted average it is one more than the first valid index and the largest condition. -/
def SolutionValidFrom (info : Info) (ics : ICMap) (j : Nat) : Prop :=
  match info.ty with
  | .linConst => (ics = [] ∧ j = info.first) ∨
      ∃ L ∈ ics.keys, (∀ i ∈ ics.keys, i ≤ L) ∧ j = max info.first (L + 1 - info.order)
  | .linVar => (ics = [] ∧ j = info.first) ∨
      ∃ L ∈ ics.keys, (∀ i ∈ ics.keys, i ≤ L) ∧ j = max info.first (L + 1 - info.order)
  | .nonLinear => (ics = [] ∧ j = info.first) ∨
      ∃ L ∈ ics.keys, (∀ i ∈ ics.keys, i ≤ L) ∧ j = max info.first (L + 1 - info.order)
  | .weighted => (ics = [] ∧ j = info.first + 1) ∨
      ∃ L ∈ ics.keys, (∀ i ∈ ics.keys, i ≤ L) ∧ j = max info.first L + 1
  | _ => j = info.first

theorem largest_mem {m : ICMap} (hs : m.Sorted) (hm : m ≠ []) : ∃ L ∈ m.keys,
    (∀ i ∈ m.keys, i ≤ L) ∧ largestKey m = some L ∧ ∃ d, (m.map Prod.fst).reverse = L :: d := by
  obtain ⟨p, hp⟩ : ∃ p, m.getLast? = some p := by
    rw [← Option.isSome_iff_exists, List.getLast?_isSome]; exact hm
  have hL : largestKey m = some p.1 := by unfold largestKey; rw [hp]; rfl
  obtain ⟨d, hd⟩ := rev_head hL
  refine ⟨p.1, ?_, ?_, hL, d, hd⟩
  · have : p.1 ∈ (m.map Prod.fst).reverse := by rw [hd]; simp
    simpa [ICMap.keys] using this
  · intro i hi
    have h2 := sorted_rev hs
    rw [hd, List.pairwise_cons] at h2
    have : i ∈ (m.map Prod.fst).reverse := by simpa [ICMap.keys] using hi
    rw [hd, List.mem_cons] at this
    rcases this with h | h
    · omega
    · exact le_of_lt (h2.1 i h)

/-- **C60 (partial: after the solution or bound has been read).**  Then
`first_valid_index_for_solution()` is the index from which the solution is valid, whatever accepted
conditions are in force. -/
theorem C60_first_valid_index_partial (w : Which) (s : RecState) (h : (query E w s).2 ≠ none)
    (hs : s.ics.Sorted) (ha : s.ics = [] ∨ Acceptable s.info s.ics)
    (ho : (s.info.ty = .linConst ∨ s.info.ty = .linVar ∨ s.info.ty = .nonLinear) →
      1 ≤ s.info.order) :
    ∃ j, firstValidForSolution (query E w s).1 = some j ∧ SolutionValidFrom s.info s.ics j := by
  refine ⟨_, (query_firstSol w s h).2, ?_⟩
  unfold setFirstSol SolutionValidFrom
  simp only
  by_cases hi : s.ics = []
  · rw [if_pos hi]
    cases ht : s.info.ty <;> simp [hi]
  · rw [if_neg hi]
    have hacc := ha.resolve_left hi
    obtain ⟨L, hL, hmax, hlk, d, hd⟩ := largest_mem hs hi
    have fin : (s.info.ty = .linConst ∨ s.info.ty = .linVar ∨ s.info.ty = .nonLinear) →
        ∃ L ∈ s.ics.keys, (∀ i ∈ s.ics.keys, i ≤ L) ∧
        (if s.info.ty = .linConst ∨ s.info.ty = .linVar ∨ s.info.ty = .nonLinear then
          max s.info.first (((s.ics.reverse.drop (s.info.order - 1)).head?.map Prod.fst).getD 0)
          else if s.info.ty = .weighted then max s.info.first (maxIC s) + 1
          else s.info.first) = max s.info.first (L + 1 - s.info.order) := by
      intro ht
      refine ⟨L, hL, hmax, ?_⟩
      rw [if_pos ht]
      have ho' := ho ht
      have hall : ∀ j < s.info.order, ∃ i ∈ s.ics.keys, i + j = L := by
        unfold Acceptable at hacc
        have : ∃ L' ∈ s.ics.keys, (∀ i ∈ s.ics.keys, i ≤ L') ∧ s.info.first ≤ L' ∧
            ∀ j < s.info.order, ∃ i ∈ s.ics.keys, i + j = L' := by
          rcases ht with ht | ht | ht
          · simpa [ht] using hacc
          · simpa [ht] using hacc
          · simp only [ht] at hacc; exact hacc.1
        obtain ⟨L', a, b, -, c⟩ := this
        have : L' = L := le_antisymm (hmax _ a) (b _ hL)
        subst this; exact c
      have hkeys : ∀ i, i ∈ s.ics.keys ↔ i ∈ L :: d := by
        intro i; rw [← hd, List.mem_reverse]; rfl
      have hdec := (dec_list d L s.info.order (by rw [← hd]; exact sorted_rev hs)).1 (by
        intro j hj
        obtain ⟨i, hi1, hi2⟩ := hall j hj
        exact ⟨i, (hkeys i).1 hi1, hi2⟩)
      obtain ⟨h1, h2⟩ := hdec.2 (s.info.order - 1) (by omega)
      have : ((s.ics.reverse.drop (s.info.order - 1)).head?.map Prod.fst) =
          some (L + 1 - s.info.order) := by
        rw [← List.head?_map, List.map_drop, List.map_reverse, hd, List.head?_drop, h2]
        congr 1; omega
      rw [this]; rfl
    cases ht : s.info.ty with
    | linConst => exact Or.inr (by simpa [ht] using fin (by simp [ht]))
    | linVar => exact Or.inr (by simpa [ht] using fin (by simp [ht]))
    | nonLinear => exact Or.inr (by simpa [ht] using fin (by simp [ht]))
    | weighted =>
      refine Or.inr ⟨L, hL, hmax, ?_⟩
      simp [maxIC, hlk]
    | _ => simp

/-- **C60 fails if the solution was computed but not read**: the answer is still the initial 0 (or
the one for earlier conditions), whatever the recurrence. -/
theorem C60_not_read_refuted (e : Expr) (x : Expr) (hc : (E.classify e).1 = .success)
    (ht : (E.classify e).2.1.ty = .linConst)
    (hs : E.solve (E.classify e).2.2 (E.classify e).2.1 false = .ok x)
    (hf : (E.classify e).2.1.first ≠ 0) :
    ∃ s, RecReach E e s ∧ (computeExact E (RecState.new e)).2 = some .success ∧
      s = (computeExact E (RecState.new e)).1 ∧ firstValidForSolution s = some 0 ∧
      ¬ SolutionValidFrom s.info s.ics 0 := by
  refine ⟨(RecState.new e).step E .computeExact, .step _ .new, ?_⟩
  have h : computeExact E (RecState.new e) = (⟨.success, (E.classify e).2.2, (E.classify e).2.1,
      some x, some x, some x, none, none, none, true, 0, []⟩, some .success) := by
    simp only [computeExact, computeExactTried, RecState.new, RecState.classify, ne_eq,
      not_true_eq_false, if_false, hc, if_true, ht, computeFinite, List.isEmpty_nil, Bool.not_true,
      hs, false_and, Prod.map, id]
  simp only [RecState.step]
  rw [h]
  refine ⟨rfl, trivial, by simp [firstValidForSolution], ?_⟩
  simp only [SolutionValidFrom, ht]
  rintro (⟨-, h0⟩ | ⟨L, hL, -⟩)
  · exact hf h0.symm
  · simp [ICMap.keys] at hL

/-- The hypotheses of both theorems are met by `demoEngine`. -/
theorem C60_example : (demoEngine.classify (.num 1)).2.1.first ≠ 0 ∧
    (∃ s, RecReach demoEngine (.num 1) s ∧ s.ics = [(1, .num 3), (2, .num 4)] ∧
      Acceptable s.info s.ics ∧ (query demoEngine .exact s).2 ≠ none ∧
      firstValidForSolution (query demoEngine .exact s).1 = some 2) := by
  refine ⟨by simp [demoEngine], ((RecState.new (.num 1)).step demoEngine
    (.setICs [(1, .num 3), (2, .num 4)])).step demoEngine .computeExact, .step _ (.step _ .new),
    rfl, ?_, ?_, rfl⟩
  · show Acceptable ⟨.linConst, 1, 1, 0⟩ [(1, .num 3), (2, .num 4)]
    refine ⟨2, by simp [ICMap.keys], by simp [ICMap.keys], by simp, ?_⟩
    intro j hj
    simp only [Nat.lt_one_iff] at hj
    exact ⟨2, by simp [ICMap.keys], by omega⟩
  · rw [Ne, query_none_iff]
    show ¬ (some _ = none)
    simp

end Purrs
