import Verif.Model.Recurrence
import Mathlib.Tactic.Linarith
import Mathlib.Tactic.IntervalCases
import Mathlib.Data.List.Basic

/-!
# C42: `set_initial_conditions` accepts exactly the right maps
-/

namespace Purrs
open RecState

/-- The indices present in a map. -/
def ICMap.keys (m : ICMap) : List Nat := m.map Prod.fst

/-- Specification of what `set_initial_conditions` accepts, by type of recurrence.  For finite
order `k` and first valid index `j`: with `L` the largest index, `L ≥ j` and `L, L-1, …, L-k+1` are
all present. -/
def Acceptable (info : Info) (m : ICMap) : Prop :=
  let finite := ∃ L ∈ m.keys, (∀ i ∈ m.keys, i ≤ L) ∧ info.first ≤ L ∧
    ∀ j < info.order, ∃ i ∈ m.keys, i + j = L
  match info.ty with
  | .orderZero => True
  | .linConst => finite
  | .linVar => finite
  | .nonLinear => finite ∧ ∀ p ∈ m, ∀ q, p.2 = .num q → 0 ≤ q
  | .weighted => ∃ i ∈ m.keys, info.first ≤ i
  | .functional => (∀ i, i ∈ m.keys ↔ 1 ≤ i ∧ i < info.divisor) ∧
      ∀ p ∈ m, ∃ q : ℚ, 0 ≤ q ∧ p.2 = .num q
  | .unknown => False
  | .maxFn => False

theorem consecLoop_iff (L : Nat) : ∀ (r j : Nat) (d : List Nat),
    consecLoop L j r d = .accepted ↔ r ≤ d.length ∧ ∀ i < r, d[i]? = some (subU32 L (j + i)) := by
  intro r
  induction r with
  | zero => intro j d; simp [consecLoop]
  | succ r ih =>
    intro j d
    cases d with
    | nil => simp [consecLoop]
    | cons x d =>
      simp only [consecLoop]
      by_cases hx : x = subU32 L j
      · rw [if_neg (not_not.2 hx), ih]
        constructor
        · rintro ⟨h1, h2⟩
          refine ⟨by simp; omega, ?_⟩
          intro i hi
          cases i with
          | zero => rw [List.getElem?_cons_zero, hx, Nat.add_zero]
          | succ i =>
            have := h2 i (by omega)
            rw [List.getElem?_cons_succ, this, show j + 1 + i = j + (i + 1) by omega]
        · rintro ⟨h1, h2⟩
          refine ⟨by simp at h1; omega, ?_⟩
          intro i hi
          have := h2 (i + 1) (by omega)
          rw [List.getElem?_cons_succ] at this
          rw [this, show j + 1 + i = j + (i + 1) by omega]
      · rw [if_pos hx]
        constructor
        · intro h; cases h
        · rintro ⟨h1, h2⟩
          have := h2 0 (by omega)
          simp at this
          exact absurd this hx

theorem consecLoop_ne_ub (L : Nat) : ∀ (r j : Nat) (d : List Nat), r ≤ d.length →
    consecLoop L j r d = .accepted ∨ consecLoop L j r d = .invalidArgument := by
  intro r
  induction r with
  | zero => intro j d h; simp [consecLoop]
  | succ r ih =>
    intro j d h
    cases d with
    | nil => simp at h
    | cons x d =>
      simp only [consecLoop]
      split_ifs
      · exact Or.inr rfl
      · exact ih _ _ (by simpa using h)

theorem subU32_eq {a b : Nat} (h : b ≤ a) (ha : a < 4294967296) : subU32 a b = a - b := by
  unfold subU32
  omega

/-- In a strictly decreasing list that starts with `L`, the values `L, L-1, …, L-k+1` all occur iff
they are the first `k` entries. -/
theorem dec_list (d : List Nat) : ∀ (L k : Nat), (L :: d).Pairwise (· > ·) →
    ((∀ j < k, ∃ i ∈ L :: d, i + j = L) ↔
      (k ≤ d.length + 1 ∧ ∀ j < k, j ≤ L ∧ (L :: d)[j]? = some (L - j))) := by
  induction d with
  | nil =>
    intro L k _
    constructor
    · intro h
      have hk : k ≤ 1 := by
        by_contra hk
        obtain ⟨i, hi, he⟩ := h 1 (by omega)
        simp at hi; omega
      refine ⟨by simpa using hk, ?_⟩
      intro j hj
      have : j = 0 := by omega
      subst this; simp
    · rintro ⟨h1, h2⟩ j hj
      have : j = 0 := by simp at h1; omega
      subst this
      exact ⟨L, by simp, by simp⟩
  | cons x d ih =>
    intro L k hp
    have hp' := List.pairwise_cons.1 hp
    have hx : L > x := hp'.1 x (by simp)
    cases k with
    | zero => simp
    | succ k =>
      cases k with
      | zero =>
        constructor
        · intro _
          refine ⟨by simp, ?_⟩
          intro j hj
          have : j = 0 := by omega
          subst this; simp
        · intro _ j hj
          have : j = 0 := by omega
          subst this
          exact ⟨L, by simp, by simp⟩
      | succ k =>
        constructor
        · intro h
          obtain ⟨i, hi, he⟩ := h 1 (by omega)
          have hxi : x = L - 1 := by
            have hi' : i ∈ x :: d := by
              rcases List.mem_cons.1 hi with h | h
              · omega
              · exact h
            rcases List.mem_cons.1 hi' with h | h
            · omega
            · have := (List.pairwise_cons.1 hp'.2).1 i h
              omega
          have := (ih x (k + 1) hp'.2).1 (by
            intro j hj
            obtain ⟨i, hi, he⟩ := h (j + 1) (by omega)
            rcases List.mem_cons.1 hi with h | h
            · omega
            · exact ⟨i, h, by omega⟩)
          refine ⟨by have := this.1; simp at this ⊢; omega, ?_⟩
          intro j hj
          cases j with
          | zero => simp
          | succ j =>
            obtain ⟨h1, h2⟩ := this.2 j (by omega)
            refine ⟨by omega, ?_⟩
            rw [List.getElem?_cons_succ, h2]
            congr 1; omega
        · rintro ⟨h1, h2⟩ j hj
          obtain ⟨h3, h4⟩ := h2 j hj
          exact ⟨L - j, List.mem_of_getElem? h4, by omega⟩

theorem sorted_rev {m : ICMap} (hs : m.Sorted) : (m.map Prod.fst).reverse.Pairwise (· > ·) := by
  rw [List.pairwise_reverse, List.pairwise_map]
  exact hs

theorem rev_head {m : ICMap} {L : Nat} (h : largestKey m = some L) :
    ∃ d, (m.map Prod.fst).reverse = L :: d := by
  unfold largestKey at h
  rw [Option.map_eq_some_iff] at h
  obtain ⟨p, hp, rfl⟩ := h
  have : (m.map Prod.fst).getLast? = some p.1 := by rw [List.getLast?_map, hp]; rfl
  rw [← List.head?_reverse] at this
  cases hd : (m.map Prod.fst).reverse with
  | nil => rw [hd] at this; simp at this
  | cons a d => rw [hd] at this; simp at this; exact ⟨d, by rw [this]⟩

theorem checkFinite_iff (info : Info) (nl : Bool) (m : ICMap) (hs : m.Sorted)
    (hb : ∀ i ∈ m.keys, i < 4294967296) (ho : 1 ≤ info.order) :
    checkFinite info nl m = .accepted ↔
      ((∃ L ∈ m.keys, (∀ i ∈ m.keys, i ≤ L) ∧ info.first ≤ L ∧
        ∀ j < info.order, ∃ i ∈ m.keys, i + j = L) ∧
      (nl = true → ∀ p ∈ m, ∀ q, p.2 = .num q → 0 ≤ q)) := by
  unfold checkFinite
  have hneg : (m.any (fun p => isNegNum p.2)) = true ↔ ∃ p ∈ m, ∃ q, p.2 = .num q ∧ q < 0 := by
    rw [List.any_eq_true]
    constructor
    · rintro ⟨p, hp, h⟩
      cases hq : p.2 <;> simp [isNegNum, hq] at h
      exact ⟨p, hp, _, hq, h⟩
    · rintro ⟨p, hp, q, hq, h⟩
      exact ⟨p, hp, by simp [isNegNum, hq, h]⟩
  cases hL : largestKey m with
  | none =>
    have : m = [] := by
      unfold largestKey at hL
      simpa using hL
    subst this
    have h0 : 0 < info.order := by omega
    simp [ICMap.keys, h0]
  | some L =>
    obtain ⟨d, hd⟩ := rev_head hL
    have hmem : ∀ i, i ∈ m.keys ↔ i ∈ L :: d := by
      intro i; rw [← hd, List.mem_reverse]; rfl
    have hlen : m.length = d.length + 1 := by
      have := congrArg List.length hd
      simpa using this
    have hpw : (L :: d).Pairwise (· > ·) := hd ▸ sorted_rev hs
    have hmax : ∀ i ∈ m.keys, i ≤ L := by
      intro i hi
      rcases List.mem_cons.1 ((hmem i).1 hi) with h | h
      · omega
      · have := (List.pairwise_cons.1 hpw).1 i h; omega
    have hLk : L ∈ m.keys := (hmem L).2 (by simp)
    have hL32 := hb L hLk
    have hspec : (∃ L ∈ m.keys, (∀ i ∈ m.keys, i ≤ L) ∧ info.first ≤ L ∧
        ∀ j < info.order, ∃ i ∈ m.keys, i + j = L) ↔
        (info.first ≤ L ∧ info.order ≤ m.length ∧
          consecLoop L 1 (info.order - 1) ((m.map Prod.fst).reverse.drop 1) = .accepted) := by
      constructor
      · rintro ⟨L', h1, h2, h3, h4⟩
        have : L' = L := le_antisymm (hmax _ h1) (h2 _ hLk)
        subst this
        have := (dec_list d L' info.order hpw).1 (by simpa only [hmem] using h4)
        refine ⟨h3, by omega, ?_⟩
        rw [hd, consecLoop_iff]
        refine ⟨by simp; omega, ?_⟩
        intro i hi
        obtain ⟨h5, h6⟩ := this.2 (i + 1) (by omega)
        rw [subU32_eq (by omega) hL32]
        simp only [List.drop_succ_cons, List.drop_zero]
        rw [List.getElem?_cons_succ] at h6
        rw [h6]; congr 1; omega
      · rintro ⟨h1, h2, h3⟩
        refine ⟨L, hLk, hmax, h1, ?_⟩
        simp only [hmem]
        rw [dec_list d L info.order hpw]
        refine ⟨by omega, ?_⟩
        rw [hd, consecLoop_iff] at h3
        simp only [List.drop_succ_cons, List.drop_zero] at h3
        -- the list is long enough and strictly decreasing, so `L ≥ order - 1`
        have hle : ∀ (e : List Nat) (M : Nat), (M :: e).Pairwise (· > ·) → e.length ≤ M := by
          intro e
          induction e with
          | nil => intro M _; simp
          | cons y e ih =>
            intro M h
            have h' := List.pairwise_cons.1 h
            have := ih y h'.2
            have := h'.1 y (by simp)
            simp; omega
        have hdl := hle d L hpw
        intro j hj
        refine ⟨by omega, ?_⟩
        cases j with
        | zero => simp
        | succ j =>
          have := h3.2 j (by omega)
          rw [List.getElem?_cons_succ, this, subU32_eq (by omega) hL32]
          congr 1; omega
    by_cases h1 : m.length < info.order
    · rw [if_pos h1]
      constructor
      · intro h; cases h
      · rintro ⟨h, -⟩
        have := (hspec.1 h).2.1
        omega
    · rw [if_neg h1]
      simp only
      by_cases h2 : L < info.first
      · rw [if_pos h2]
        constructor
        · intro h; cases h
        · rintro ⟨h, -⟩
          have := (hspec.1 h).1
          omega
      · rw [if_neg h2]
        rcases consecLoop_ne_ub L (info.order - 1) 1 ((m.map Prod.fst).reverse.drop 1)
          (by rw [List.length_drop, List.length_reverse, List.length_map]; omega) with h | h
        · simp only [h]
          rw [hspec]
          by_cases hn : nl && m.any (fun p => isNegNum p.2)
          · rw [if_pos hn]
            rw [Bool.and_eq_true] at hn
            obtain ⟨p, hp, q, hq, hlt⟩ := hneg.1 hn.2
            constructor
            · intro h; cases h
            · rintro ⟨-, h⟩
              exact absurd (h hn.1 p hp q hq) (by linarith)
          · rw [if_neg hn]
            simp only [true_iff]
            refine ⟨⟨by omega, by omega, h⟩, ?_⟩
            intro hnl p hp q hq
            by_contra hlt
            apply hn
            rw [Bool.and_eq_true]
            exact ⟨hnl, hneg.2 ⟨p, hp, q, hq, by linarith⟩⟩
        · simp only [h]
          rw [hspec, h]
          simp

theorem funLoop_iff : ∀ (r j : Nat) (m : ICMap), r = m.length →
    (funLoop j r m = .accepted ↔ (m.map Prod.fst = List.range' j r ∧
      ∀ p ∈ m, ∃ q : ℚ, 0 ≤ q ∧ p.2 = .num q)) := by
  intro r
  induction r with
  | zero =>
    intro j m h
    have : m = [] := List.length_eq_zero_iff.1 h.symm
    subst this; simp [funLoop]
  | succ r ih =>
    intro j m h
    cases m with
    | nil => simp at h
    | cons p m =>
      obtain ⟨i, v⟩ := p
      simp only [funLoop]
      by_cases hi : i = j
      · rw [if_neg (not_not.2 hi)]
        subst hi
        cases v with
        | num q =>
          simp only
          by_cases hq : q < 0
          · rw [if_pos hq]
            constructor
            · intro h; cases h
            · rintro ⟨-, h⟩
              obtain ⟨q', h1, h2⟩ := h (i, .num q) (by simp)
              simp at h2; subst h2; linarith
          · rw [if_neg hq, ih (i + 1) m (by simpa using h)]
            simp only [List.map_cons, List.range'_succ, List.cons.injEq, true_and]
            constructor
            · rintro ⟨h1, h2⟩
              refine ⟨h1, ?_⟩
              intro p hp
              rcases List.mem_cons.1 hp with rfl | hp
              · exact ⟨q, by linarith, rfl⟩
              · exact h2 p hp
            · rintro ⟨h1, h2⟩
              exact ⟨h1, fun p hp => h2 p (List.mem_cons_of_mem _ hp)⟩
        | _ =>
          simp only
          constructor
          · intro h; cases h
          · rintro ⟨-, h⟩
            obtain ⟨q', h1, h2⟩ := h _ (List.mem_cons_self)
            cases h2
      · rw [if_pos hi]
        constructor
        · intro h; cases h
        · rintro ⟨h, -⟩
          simp only [List.map_cons, List.range'_succ, List.cons.injEq] at h
          exact absurd h.1 hi

theorem checkFunctional_iff (info : Info) (m : ICMap) (hs : m.Sorted) :
    checkFunctional info m = .accepted ↔
      ((∀ i, i ∈ m.keys ↔ 1 ≤ i ∧ i < info.divisor) ∧
        ∀ p ∈ m, ∃ q : ℚ, 0 ≤ q ∧ p.2 = .num q) := by
  have hpk : m.keys.Pairwise (· < ·) := by
    unfold ICMap.keys; rw [List.pairwise_map]; exact hs
  have key : (∀ i, i ∈ m.keys ↔ 1 ≤ i ∧ i < info.divisor) ↔
      m.keys = List.range' 1 (info.divisor - 1) := by
    constructor
    · intro h
      have hr : (List.range' 1 (info.divisor - 1)).Pairwise (· < ·) := List.pairwise_lt_range'
      have n1 : m.keys.Nodup := hpk.imp fun h => ne_of_lt h
      have n2 := hr.imp (fun {a b} (h : a < b) => ne_of_lt h)
      have hp : m.keys.Perm (List.range' 1 (info.divisor - 1)) := by
        rw [List.perm_ext_iff_of_nodup n1 n2]
        intro i
        rw [h i, List.mem_range'_1]
        omega
      exact hp.eq_of_pairwise (le := (· < ·)) (fun a b _ _ h1 h2 => by omega) hpk hr
    · intro h i
      rw [h, List.mem_range'_1]
      omega
  unfold checkFunctional
  by_cases hl : m.length = info.divisor - 1
  · rw [if_neg (not_not.2 hl), funLoop_iff _ _ _ hl.symm, key]
    rfl
  · rw [if_pos hl]
    constructor
    · intro h; cases h
    · rintro ⟨h, -⟩
      have := congrArg List.length (key.1 h)
      simp [ICMap.keys] at this
      exact absurd this hl

theorem checkICs_iff (info : Info) (m : ICMap) (hs : m.Sorted)
    (hb : ∀ i ∈ m.keys, i < 4294967296)
    (ho : (info.ty = .linConst ∨ info.ty = .linVar ∨ info.ty = .nonLinear) → 1 ≤ info.order) :
    checkICs info m = .accepted ↔ Acceptable info m := by
  unfold checkICs Acceptable
  cases ht : info.ty with
  | unknown => simp
  | maxFn => simp
  | orderZero => simp
  | linConst => simpa using checkFinite_iff info false m hs hb (ho (by simp [ht]))
  | linVar => simpa using checkFinite_iff info false m hs hb (ho (by simp [ht]))
  | nonLinear => simpa using checkFinite_iff info true m hs hb (ho (by simp [ht]))
  | functional => exact checkFunctional_iff info m hs
  | weighted =>
    simp only
    cases hL : largestKey m with
    | none =>
      have : m = [] := by unfold largestKey at hL; simpa using hL
      subst this; simp [ICMap.keys]
    | some L =>
      obtain ⟨d, hd⟩ := rev_head hL
      have hmem : ∀ i, i ∈ m.keys ↔ i ∈ L :: d := by
        intro i; rw [← hd, List.mem_reverse]; rfl
      have hpw : (L :: d).Pairwise (· > ·) := hd ▸ sorted_rev hs
      simp only
      split_ifs with h
      · simp only [false_iff, not_exists, not_and, not_le]
        intro i hi
        rcases List.mem_cons.1 ((hmem i).1 hi) with h' | h'
        · omega
        · have := (List.pairwise_cons.1 hpw).1 i h'; omega
      · simp only [true_iff]
        exact ⟨L, (hmem L).2 (by simp), by omega⟩

/-- The classification of the recurrence held by `s` (cached or computed on demand). -/
def RecState.classified (E : Engine) (s : RecState) : ClStatus × Info :=
  if s.cl = .notYet then ((E.classify s.rhs).1, (E.classify s.rhs).2.1) else (s.cl, s.info)

/-- **C42.** `set_initial_conditions(m)` succeeds exactly when the recurrence is classified and `m`
is acceptable for it; afterwards `get_initial_conditions()` is `m`. -/
theorem C42_accepts_exactly (E : Engine) (s : RecState) (m : ICMap) (hs : m.Sorted)
    (hb : ∀ i ∈ m.keys, i < 4294967296)
    (ho : let i := (s.classified E).2
      (i.ty = .linConst ∨ i.ty = .linVar ∨ i.ty = .nonLinear) → 1 ≤ i.order) :
    (setICs E s m).2 = .accepted ↔
      ((s.classified E).1 = .success ∧ Acceptable (s.classified E).2 m) := by
  have e1 : ∀ s : RecState, ((s.resetICs).classify E).cl = (s.classified E).1 ∧
      ((s.resetICs).classify E).info = (s.classified E).2 ∧
      (s.classify E).cl = (s.classified E).1 ∧ (s.classify E).info = (s.classified E).2 := by
    intro s
    unfold RecState.classified RecState.classify RecState.resetICs
    by_cases h : s.cl = .notYet <;> simp [h]
  have e2 : (((if s.ics ≠ [] then s.resetICs else s)).classify E).cl = (s.classified E).1 ∧
      (((if s.ics ≠ [] then s.resetICs else s)).classify E).info = (s.classified E).2 := by
    by_cases h : s.ics ≠ []
    · rw [if_pos h]; exact ⟨(e1 s).1, (e1 s).2.1⟩
    · rw [if_neg h]; exact (e1 s).2.2
  unfold setICs setICsClassified
  simp only [e2.1, e2.2]
  by_cases hc : (s.classified E).1 = .success
  · rw [if_neg (not_not.2 hc), ← checkICs_iff _ _ hs hb ho]
    cases hk : checkICs (s.classified E).2 m <;> simp [hc]
  · rw [if_pos hc]; simp [hc]

theorem classify_ics (E : Engine) (s : RecState) : (s.classify E).ics = s.ics := by
  unfold RecState.classify; split_ifs <;> rfl

theorem setICs_ics (E : Engine) (s : RecState) (m : ICMap) :
    (setICs E s m).1.ics = if (setICs E s m).2 = .accepted then m else [] := by
  have h0 : ((if s.ics ≠ [] then s.resetICs else s).classify E).ics = [] := by
    rw [classify_ics]
    split_ifs with h
    · rfl
    · exact not_not.1 h
  unfold setICs
  generalize (if s.ics ≠ [] then s.resetICs else s).classify E = t at *
  unfold setICsClassified
  by_cases hc : t.cl ≠ .success
  · simp only [if_pos hc]; simpa using h0
  · simp only [if_neg hc]
    cases checkICs t.info m <;> simp [h0]

/-- **C42.** After acceptance the conditions are the given ones. -/
theorem C42_accepted_are_used (E : Engine) (s : RecState) (m : ICMap)
    (h : (setICs E s m).2 = .accepted) : (setICs E s m).1.ics = m := by
  rw [setICs_ics, if_pos h]

/-- The documentation of `set_initial_conditions` (src/Recurrence.defs.hh:299-310): for some `p ≥ 1`
the `k` conditions `j-k+p, …, j+p-1` are present. -/
def DocumentedFinite (info : Info) (m : ICMap) : Prop :=
  ∃ p ≥ 1, ∀ i < info.order, ∃ a ∈ m.keys, a + info.order = info.first + p + i

/-- **C42.** What is accepted for a finite-order recurrence satisfies the documented condition. -/
theorem C42_accepted_is_documented (info : Info) (m : ICMap) (h : Acceptable info m)
    (ht : info.ty = .linConst ∨ info.ty = .linVar) :
    DocumentedFinite info m := by
  have : ∃ L ∈ m.keys, (∀ i ∈ m.keys, i ≤ L) ∧ info.first ≤ L ∧
      ∀ j < info.order, ∃ i ∈ m.keys, i + j = L := by
    unfold Acceptable at h
    rcases ht with h' | h' <;> simpa [h'] using h
  obtain ⟨L, h1, h2, h3, h4⟩ := this
  refine ⟨L - info.first + 1, by omega, ?_⟩
  intro i hi
  obtain ⟨a, ha, he⟩ := h4 (info.order - 1 - i) (by omega)
  exact ⟨a, ha, by omega⟩

/-- **C42 fails** in the other direction: the documentation admits `x(0), x(1), x(5)` for a
recurrence of order two (take `p = 2`); the code rejects it. -/
theorem C107_documented_rejected_refuted :
    let info : Info := ⟨.linConst, 2, 0, 0⟩
    let m : ICMap := [(0, .num 1), (1, .num 1), (5, .num 1)]
    DocumentedFinite info m ∧ checkICs info m = .invalidArgument := by
  refine ⟨⟨2, by norm_num, ?_⟩, by decide⟩
  intro i hi
  refine ⟨i, ?_, by simp; omega⟩
  simp only at hi
  interval_cases i <;> simp [ICMap.keys]

/-- **C42 fails**: when a map is rejected the previous initial conditions are gone, for every
engine, every recurrence with initial conditions and every rejected map. -/
theorem C107_rejection_loses_conditions_refuted (E : Engine) (s : RecState) (m : ICMap)
    (h : (setICs E s m).2 ≠ .accepted) (hne : s.ics ≠ []) : (setICs E s m).1.ics ≠ s.ics := by
  rw [setICs_ics, if_neg h]; exact hne.symm

/-- **C42 (partial)**: a rejected call never installs the rejected map: no conditions are left. -/
theorem C107_rejected_not_used_partial (E : Engine) (s : RecState) (m : ICMap)
    (h : (setICs E s m).2 ≠ .accepted) : (setICs E s m).1.ics = [] := by
  rw [setICs_ics, if_neg h]

/-- A concrete case: a second-order recurrence, valid from `n = 0`, accepts `x(3), x(4)` together
with the special case `x(1)`; and rejects `x(3), x(5)`. -/
theorem C42_example :
    Acceptable ⟨.linConst, 2, 0, 0⟩ [(1, .num 7), (3, .num 5), (4, .sym "a")] ∧
    ¬ Acceptable ⟨.linConst, 2, 0, 0⟩ [(3, .num 5), (5, .sym "a")] := by
  have hs1 : ICMap.Sorted [(1, .num 7), (3, .num 5), (4, .sym "a")] := by
    simp [ICMap.Sorted]
  have hs2 : ICMap.Sorted [(3, .num 5), (5, .sym "a")] := by simp [ICMap.Sorted]
  rw [← checkICs_iff _ _ hs1 (by simp [ICMap.keys]) (by simp),
    ← checkICs_iff _ _ hs2 (by simp [ICMap.keys]) (by simp)]
  decide

end Purrs
