import Verif.Props.Capstone
import Verif.Props.NonLinearBounds
import Verif.Props.BoundsRefuted

/-!
# Bounds after any history of calls (C140, C141)

The invariant of `Capstone` with three classes of expressions: solutions, lower bounds, upper bounds.
-/

set_option linter.unusedSectionVars false

namespace Purrs.CapstoneBounds

open RecState
open Function (update update_of_ne update_self)
open OrderRed (withX eval_x eval_noX SolvesAt IsSolution idxNe)

/-! ### An invariant of all histories -/

variable {E : Engine}

/-- Which of the three a query asks for. -/
abbrev Cl := Which → Expr → Prop

/-- `P .exact` holds of what the solver returns, `P .lower` and `P .upper` of the bounds, `Q k m` of what is computed from them for the
initial conditions `m`.  A solution is a lower and an upper bound and conversely; the bounds of a functional equation are never equal. -/
structure Closed (E : Engine) (e : Expr) (P : Cl) (Q : Which → ICMap → Expr → Prop) : Prop where
  classified : (E.classify e).1 ≠ .notYet
  ty : (E.classify e).2.1.ty ≠ .unknown ∧ (E.classify e).2.1.ty ≠ .maxFn
  solve : ∀ b x, (E.classify e).2.1.ty ≠ .functional → E.solve (E.classify e).2.2 (E.classify e).2.1 b = .ok x → P .exact x
  lower : ∀ x, E.bound (E.classify e).2.2 (E.classify e).2.1 .lower = .ok x → P .lower x
  upper : ∀ x, E.bound (E.classify e).2.2 (E.classify e).2.1 .upper = .ok x → P .upper x
  rename : ∀ k x, P k x → P k (E.rename x)
  both : ∀ x, P .exact x ↔ P .lower x ∧ P .upper x
  apart : (E.classify e).2.1.ty = .functional → ∀ x, ¬ (P .lower x ∧ P .upper x)
  onIC : ∀ k x m, P k x → checkICs (E.classify e).2.1 m = .accepted → Q k m (E.onIC (E.classify e).2.2 (E.classify e).2.1 m x)
  onICr : ∀ k x m, P k x → checkICs (E.classify e).2.1 m = .accepted →
    Q k m (E.rename (E.onIC (E.classify e).2.2 (E.classify e).2.1 m x))
  evBoth : ∀ m v, Q .exact m v → Q .lower m v ∧ Q .upper m v

/-- The invariant of a classified object. -/
structure Cls (E : Engine) (e : Expr) (P : Cl) (Q : Which → ICMap → Expr → Prop) (s : RecState) : Prop where
  cl : s.cl = (E.classify e).1
  rhs : s.rhs = (E.classify e).2.2
  info : s.info = (E.classify e).2.1
  exact : ∀ x, s.exact = some x → P .exact x
  lower : ∀ x, s.lower = some x → P .lower x
  upper : ∀ x, s.upper = some x → P .upper x
  evE : ∀ v, s.evExact = some v → s.ics ≠ [] ∧ Q .exact s.ics v
  evL : ∀ v, s.evLower = some v → s.ics ≠ [] ∧ Q .lower s.ics v
  evU : ∀ v, s.evUpper = some v → s.ics ≠ [] ∧ Q .upper s.ics v
  acc : s.ics = [] ∨ checkICs s.info s.ics = .accepted

/-- The invariant of any object. -/
def Inv (E : Engine) (e : Expr) (P : Cl) (Q : Which → ICMap → Expr → Prop) (s : RecState) : Prop :=
  (s.cl = .notYet ∧ s.rhs = e ∧ s.exact = none ∧ s.lower = none ∧ s.upper = none ∧
    s.evExact = none ∧ s.evLower = none ∧ s.evUpper = none ∧ s.ics = []) ∨ Cls E e P Q s

variable {e : Expr} {P : Cl} {Q : Which → ICMap → Expr → Prop}

theorem cls_classify {s : RecState} (hC : Closed E e P Q) (h : Inv E e P Q s) : Cls E e P Q (s.classify E) := by
  rcases h with ⟨h1, h2, h3, h4, h5, h6, h7, h8, h9⟩ | h
  · unfold RecState.classify
    rw [if_neg (by simp [h1])]
    subst h2
    refine ⟨rfl, rfl, rfl, ?_, ?_, ?_, ?_, ?_, ?_, Or.inl h9⟩ <;> simp_all
  · unfold RecState.classify
    rw [if_pos (by rw [h.cl]; exact hC.classified)]
    exact h

theorem Cls.onIC {s : RecState} (hC : Closed E e P Q) (h : Cls E e P Q s) {k : Which} {x : Expr} (hx : P k x) (hi : s.ics ≠ []) :
    Q k s.ics (E.onIC s.rhs s.info s.ics x) ∧ Q k s.ics (E.rename (E.onIC s.rhs s.info s.ics x)) := by
  have ha := h.acc.resolve_left hi
  rw [h.info] at ha
  rw [h.rhs, h.info]
  exact ⟨hC.onIC k x _ hx ha, hC.onICr k x _ hx ha⟩

/-- All fields but the caches are kept, the caches are right. -/
theorem Cls.mk' {s t : RecState} (h : Cls E e P Q s) (h1 : t.cl = s.cl) (h2 : t.rhs = s.rhs) (h3 : t.info = s.info) (h4 : t.ics = s.ics)
    (hE : t.exact = s.exact ∨ ∃ x, t.exact = some x ∧ P .exact x) (hL : t.lower = s.lower ∨ ∃ x, t.lower = some x ∧ P .lower x)
    (hU : t.upper = s.upper ∨ ∃ x, t.upper = some x ∧ P .upper x)
    (vE : t.evExact = s.evExact ∨ ∃ v, t.evExact = some v ∧ s.ics ≠ [] ∧ Q .exact s.ics v)
    (vL : t.evLower = s.evLower ∨ ∃ v, t.evLower = some v ∧ s.ics ≠ [] ∧ Q .lower s.ics v)
    (vU : t.evUpper = s.evUpper ∨ ∃ v, t.evUpper = some v ∧ s.ics ≠ [] ∧ Q .upper s.ics v) : Cls E e P Q t := by
  refine ⟨h1.trans h.cl, h2.trans h.rhs, h3.trans h.info, ?_, ?_, ?_, ?_, ?_, ?_, by rw [h4, h3]; exact h.acc⟩
  · intro x hx
    rcases hE with hE | ⟨y, hE, hy⟩
    · exact h.exact x (hE ▸ hx)
    · rw [hE] at hx; cases hx; exact hy
  · intro x hx
    rcases hL with hE | ⟨y, hE, hy⟩
    · exact h.lower x (hE ▸ hx)
    · rw [hE] at hx; cases hx; exact hy
  · intro x hx
    rcases hU with hE | ⟨y, hE, hy⟩
    · exact h.upper x (hE ▸ hx)
    · rw [hE] at hx; cases hx; exact hy
  · intro x hx
    rw [h4]
    rcases vE with hE | ⟨y, hE, hy⟩
    · exact h.evE x (hE ▸ hx)
    · rw [hE] at hx; cases hx; exact hy
  · intro x hx
    rw [h4]
    rcases vL with hE | ⟨y, hE, hy⟩
    · exact h.evL x (hE ▸ hx)
    · rw [hE] at hx; cases hx; exact hy
  · intro x hx
    rw [h4]
    rcases vU with hE | ⟨y, hE, hy⟩
    · exact h.evU x (hE ▸ hx)
    · rw [hE] at hx; cases hx; exact hy

/-- A solution found. -/
theorem Cls.found {s : RecState} (hC : Closed E e P Q) (h : Cls E e P Q s) {x : Expr} (hx : P .exact x) :
    Cls E e P Q { s with exact := some x, lower := some x, upper := some x } := by
  obtain ⟨hl, hu⟩ := (hC.both x).mp hx
  exact h.mk' rfl rfl rfl rfl (Or.inr ⟨x, rfl, hx⟩) (Or.inr ⟨x, rfl, hl⟩) (Or.inr ⟨x, rfl, hu⟩) (Or.inl rfl) (Or.inl rfl) (Or.inl rfl)

/-- Its value on the initial conditions. -/
theorem Cls.found_ev {s : RecState} (hC : Closed E e P Q) (h : Cls E e P Q s) {v : Expr} (hi : s.ics ≠ []) (hv : Q .exact s.ics v) :
    Cls E e P Q { s with evExact := some v, evLower := some v, evUpper := some v } := by
  obtain ⟨ql, qu⟩ := hC.evBoth _ _ hv
  exact h.mk' rfl rfl rfl rfl (Or.inl rfl) (Or.inl rfl) (Or.inl rfl) (Or.inr ⟨_, rfl, hi, hv⟩) (Or.inr ⟨_, rfl, hi, ql⟩) (Or.inr ⟨_, rfl, hi, qu⟩)

theorem cls_computeFinite {s : RecState} (hC : Closed E e P Q) (h : Cls E e P Q s) (ht : s.info.ty ≠ .functional) :
    Cls E e P Q (computeFinite E s).1 := by
  unfold computeFinite
  cases hs : E.solve s.rhs s.info (!s.ics.isEmpty) with
  | error st => exact h
  | ok x =>
    have hx : P .exact x := by
      rw [h.info] at ht
      rw [h.rhs, h.info] at hs
      exact hC.solve _ _ ht hs
    simp only
    by_cases hi : s.ics ≠ [] ∧ s.info.order > 0
    · rw [if_pos hi]
      exact (h.found hC hx).found_ev hC hi.1 (h.onIC hC hx hi.1).2
    · rw [if_neg hi]
      exact h.found hC hx

theorem cls_computeOther {s : RecState} (hC : Closed E e P Q) (h : Cls E e P Q s) (ht : s.info.ty ≠ .functional) :
    Cls E e P Q (computeOther E s).1 := by
  unfold computeOther
  cases hs : E.solve s.rhs s.info (!s.ics.isEmpty) with
  | error st => exact h
  | ok x =>
    have hx : P .exact x := by
      rw [h.info] at ht
      rw [h.rhs, h.info] at hs
      exact hC.solve _ _ ht hs
    simp only
    by_cases hi : s.ics ≠ []
    · rw [if_pos hi]
      exact (h.found hC hx).found_ev hC hi (h.onIC hC hx hi).1
    · rw [if_neg hi]
      exact h.found hC hx

/-- One bound of a functional equation; the solution is left alone. -/
theorem cls_approx {s : RecState} (hC : Closed E e P Q) (h : Cls E e P Q s) (ht : s.info.ty = .functional) (k : BoundKind) :
    Cls E e P Q (approxFunctional E s k).1 ∧ (approxFunctional E s k).1.ics = s.ics ∧ (approxFunctional E s k).1.info = s.info ∧
      (approxFunctional E s k).1.rhs = s.rhs := by
  have ht' := ht
  rw [h.info] at ht'
  unfold approxFunctional
  cases hb : E.bound s.rhs s.info k with
  | error st => exact ⟨h, rfl, rfl, rfl⟩
  | ok b =>
    rw [h.rhs, h.info] at hb
    cases k with
    | lower =>
      have hl := hC.lower b hb
      have hne : s.upper ≠ some b := fun hu => hC.apart ht' b ⟨hl, h.upper b hu⟩
      simp only
      rw [if_neg hne]
      exact ⟨h.mk' rfl rfl rfl rfl (Or.inl rfl) (Or.inr ⟨b, rfl, hl⟩) (Or.inl rfl) (Or.inl rfl) (Or.inl rfl) (Or.inl rfl), by simp⟩
    | upper =>
      have hu := hC.upper b hb
      have hne : s.lower ≠ some b := fun hl => hC.apart ht' b ⟨h.lower b hl, hu⟩
      simp only
      rw [if_neg hne]
      exact ⟨h.mk' rfl rfl rfl rfl (Or.inl rfl) (Or.inl rfl) (Or.inr ⟨b, rfl, hu⟩) (Or.inl rfl) (Or.inl rfl) (Or.inl rfl), by simp⟩

theorem cls_computeFunctional {s : RecState} (hC : Closed E e P Q) (h : Cls E e P Q s) (ht : s.info.ty = .functional) :
    Cls E e P Q (computeFunctional E s).1 := by
  unfold computeFunctional
  obtain ⟨h1, hi1, hn1, hr1⟩ := cls_approx hC h ht .lower
  simp only
  by_cases hs1 : (approxFunctional E s .lower).2 = .success
  · rw [if_pos hs1]
    obtain ⟨h2, hi2, hn2, hr2⟩ := cls_approx hC h1 (hn1 ▸ ht) .upper
    generalize (approxFunctional E (approxFunctional E s .lower).1 .upper) = r at h2 hi2 hn2 hr2
    by_cases hs2 : r.2 = .success ∧ r.1.lower = r.1.upper
    · rw [if_pos hs2]
      have hlo : r.1.lower = none := by
        by_contra hne
        obtain ⟨l, hl⟩ := Option.ne_none_iff_exists'.mp hne
        exact hC.apart (by rw [← h2.info, hn2, hn1, ht]) l ⟨h2.lower l hl, h2.upper l (hs2.2 ▸ hl)⟩
      have hup : r.1.upper = none := hs2.2 ▸ hlo
      have hcls : Cls E e P Q { r.1 with exact := r.1.lower } := by
        refine ⟨h2.cl, h2.rhs, h2.info, ?_, h2.lower, h2.upper, h2.evE, h2.evL, h2.evU, h2.acc⟩
        intro x hx
        have hx : r.1.lower = some x := hx
        rw [hlo] at hx; cases hx
      by_cases hi : s.ics ≠ []
      · rw [if_pos hi]
        refine ⟨h2.cl, h2.rhs, h2.info, hcls.exact, h2.lower, h2.upper, ?_, ?_, ?_, h2.acc⟩ <;>
        · intro v hv
          simp [hlo] at hv
      · rw [if_neg hi]; exact hcls
    · rw [if_neg hs2]; exact h2
  · rw [if_neg hs1]; exact h1

theorem Inv.tried {s : RecState} (h : Inv E e P Q s) (b : Bool) : Inv E e P Q { s with tried := b } := by
  rcases h with h | h
  · exact Or.inl h
  · exact Or.inr (h.mk' rfl rfl rfl rfl (Or.inl rfl) (Or.inl rfl) (Or.inl rfl) (Or.inl rfl) (Or.inl rfl) (Or.inl rfl))

theorem inv_computeExact {s0 : RecState} (hC : Closed E e P Q) (h0 : Inv E e P Q s0) : Inv E e P Q (computeExact E s0).1 := by
  unfold computeExact
  have h := h0.tried true
  generalize { s0 with tried := true } = s at h
  cases hx : s.exact with
  | some x =>
    rw [computeExactTried_some hx]
    rcases h with h | h
    · rw [h.2.2.1] at hx; cases hx
    · by_cases hi : s.ics ≠ [] ∧ s.evExact = none
      · rw [if_pos hi]
        exact Or.inr (h.found_ev hC hi.1 (h.onIC hC (h.exact x hx) hi.1).1)
      · rw [if_neg hi]; exact Or.inr h
  | none =>
    by_cases hlu : s.lower ≠ none ∧ s.lower = s.upper
    · rw [computeExactTried_eq hx hlu]
      rcases h with h | h
      · exact absurd h.2.2.2.1 hlu.1
      · obtain ⟨l, hl⟩ := Option.ne_none_iff_exists'.mp hlu.1
        have hp : P .exact l := (hC.both l).mpr ⟨h.lower l hl, h.upper l (hlu.2 ▸ hl)⟩
        exact Or.inr (h.mk' rfl rfl rfl rfl (Or.inr ⟨l, hl, hp⟩) (Or.inl rfl) (Or.inl rfl) (Or.inl rfl) (Or.inl rfl) (Or.inl rfl))
    · rw [computeExactTried_fresh hx hlu]
      have hc := cls_classify hC h
      generalize s.classify E = t at hc
      refine Or.inr ?_
      have ht : t.info.ty ≠ .unknown ∧ t.info.ty ≠ .maxFn := by
        rw [hc.info]; exact hC.ty
      by_cases hs : t.cl = .success
      · rw [if_pos hs]
        cases hty : t.info.ty with
        | unknown => exact absurd hty ht.1
        | maxFn => exact absurd hty ht.2
        | orderZero => exact cls_computeFinite hC hc (by simp [hty])
        | linConst => exact cls_computeFinite hC hc (by simp [hty])
        | linVar => exact cls_computeFinite hC hc (by simp [hty])
        | nonLinear => exact cls_computeOther hC hc (by simp [hty])
        | weighted => exact cls_computeOther hC hc (by simp [hty])
        | functional => exact cls_computeFunctional hC hc hty
      · rw [if_neg hs]; exact hc

theorem inv_computeLower {s : RecState} (hC : Closed E e P Q) (h : Inv E e P Q s) : Inv E e P Q (computeLower E s).1 := by
  cases hl : s.lower with
  | some l =>
    rw [computeLower_some hl]
    rcases h with h | h
    · rw [h.2.2.2.1] at hl; cases hl
    · by_cases hi : s.ics ≠ [] ∧ s.evLower = none
      · rw [if_pos hi]
        have hq := (h.onIC hC (h.lower l hl) hi.1).1
        exact Or.inr (h.mk' rfl rfl rfl rfl (Or.inl rfl) (Or.inl rfl) (Or.inl rfl)
          (Or.inl rfl) (Or.inr ⟨_, rfl, hi.1, hq⟩) (Or.inl rfl))
      · rw [if_neg hi]; exact Or.inr h
  | none =>
    cases hx : s.exact with
    | some x =>
      rw [computeLower_exact hl hx]
      rcases h with h | h
      · rw [h.2.2.1] at hx; cases hx
      · have hp := h.exact x hx
        have hp' := ((hC.both x).mp hp).1
        by_cases hi : s.ics ≠ [] ∧ s.evLower = none
        · rw [if_pos hi]
          have hq := (h.onIC hC hp hi.1).1
          exact Or.inr (h.mk' rfl rfl rfl rfl (Or.inl rfl) (Or.inr ⟨x, rfl, hp'⟩) (Or.inl rfl)
            (Or.inr ⟨_, rfl, hi.1, hq⟩) (Or.inr ⟨_, rfl, hi.1, (hC.evBoth _ _ hq).1⟩) (Or.inl rfl))
        · rw [if_neg hi]
          exact Or.inr (h.mk' rfl rfl rfl rfl (Or.inl rfl) (Or.inr ⟨x, rfl, hp'⟩) (Or.inl rfl) (Or.inl rfl) (Or.inl rfl) (Or.inl rfl))
    | none =>
      rw [computeLower_fresh hl hx]
      have hc := cls_classify hC h
      generalize s.classify E = t at hc
      have ht : t.info.ty ≠ .unknown ∧ t.info.ty ≠ .maxFn := by
        rw [hc.info]; exact hC.ty
      by_cases hs : t.cl = .success
      · rw [if_pos hs]
        cases hty : t.info.ty with
        | unknown => exact absurd hty ht.1
        | maxFn => exact absurd hty ht.2
        | functional =>
          simp only
          obtain ⟨h1, hi1, hn1, hr1⟩ := cls_approx hC hc hty .lower
          by_cases hi : (approxFunctional E t .lower).2 = .success ∧ t.ics ≠ []
          · rw [if_pos hi]
            cases hlo : (approxFunctional E t .lower).1.lower with
            | none =>
              refine Or.inr ⟨h1.cl, h1.rhs, h1.info, h1.exact, (fun x hx => by cases hx), h1.upper, h1.evE, ?_, h1.evU, h1.acc⟩
              intro v hv
              simp at hv
            | some l =>
              have hq := (hc.onIC hC (h1.lower l hlo) hi.2).1
              refine Or.inr (h1.mk' rfl rfl rfl rfl (Or.inl rfl) (Or.inl hlo.symm) (Or.inl rfl) (Or.inl rfl) (Or.inr ⟨_, rfl, ?_, ?_⟩) (Or.inl rfl))
              · rw [hi1]; exact hi.2
              · rw [hi1]; exact hq
          · rw [if_neg hi]; exact Or.inr h1
        | nonLinear =>
          simp only
          cases hb : E.bound t.rhs t.info .lower with
          | error st => exact Or.inr hc
          | ok b =>
            rw [hc.rhs, hc.info] at hb
            exact Or.inr (hc.mk' rfl rfl rfl rfl (Or.inl rfl) (Or.inr ⟨b, rfl, hC.lower b hb⟩) (Or.inl rfl) (Or.inl rfl) (Or.inl rfl) (Or.inl rfl))
        | _ =>
          simp only
          split_ifs <;> first | exact inv_computeExact hC (Or.inr hc) | exact Or.inr hc
      · rw [if_neg hs]; exact Or.inr hc

theorem inv_computeUpper {s : RecState} (hC : Closed E e P Q) (h : Inv E e P Q s) : Inv E e P Q (computeUpper E s).1 := by
  cases hl : s.upper with
  | some l =>
    rw [computeUpper_some hl]
    rcases h with h | h
    · rw [h.2.2.2.2.1] at hl; cases hl
    · by_cases hi : s.ics ≠ [] ∧ s.evUpper = none
      · rw [if_pos hi]
        have hq := (h.onIC hC (h.upper l hl) hi.1).1
        exact Or.inr (h.mk' rfl rfl rfl rfl (Or.inl rfl) (Or.inl rfl) (Or.inl rfl)
          (Or.inl rfl) (Or.inl rfl) (Or.inr ⟨_, rfl, hi.1, hq⟩))
      · rw [if_neg hi]; exact Or.inr h
  | none =>
    cases hx : s.exact with
    | some x =>
      rw [computeUpper_exact hl hx]
      rcases h with h | h
      · rw [h.2.2.1] at hx; cases hx
      · have hp := h.exact x hx
        have hp' := ((hC.both x).mp hp).2
        by_cases hi : s.ics ≠ [] ∧ s.evUpper = none
        · rw [if_pos hi]
          have hq := (h.onIC hC hp hi.1).1
          exact Or.inr (h.mk' rfl rfl rfl rfl (Or.inl rfl) (Or.inl rfl) (Or.inr ⟨x, rfl, hp'⟩)
            (Or.inr ⟨_, rfl, hi.1, hq⟩) (Or.inl rfl) (Or.inr ⟨_, rfl, hi.1, (hC.evBoth _ _ hq).2⟩))
        · rw [if_neg hi]
          exact Or.inr (h.mk' rfl rfl rfl rfl (Or.inl rfl) (Or.inl rfl) (Or.inr ⟨x, rfl, hp'⟩) (Or.inl rfl) (Or.inl rfl) (Or.inl rfl))
    | none =>
      rw [computeUpper_fresh hl hx]
      have hc := cls_classify hC h
      generalize s.classify E = t at hc
      have ht : t.info.ty ≠ .unknown ∧ t.info.ty ≠ .maxFn := by
        rw [hc.info]; exact hC.ty
      by_cases hs : t.cl = .success
      · rw [if_pos hs]
        cases hty : t.info.ty with
        | unknown => exact absurd hty ht.1
        | maxFn => exact absurd hty ht.2
        | functional =>
          simp only
          obtain ⟨h1, hi1, hn1, hr1⟩ := cls_approx hC hc hty .upper
          by_cases hi : (approxFunctional E t .upper).2 = .success ∧ t.ics ≠ []
          · rw [if_pos hi]
            cases hlo : (approxFunctional E t .upper).1.upper with
            | none =>
              refine Or.inr ⟨h1.cl, h1.rhs, h1.info, h1.exact, h1.lower, (fun x hx => by cases hx), h1.evE, h1.evL, ?_, h1.acc⟩
              intro v hv
              simp at hv
            | some l =>
              have hq := (hc.onIC hC (h1.upper l hlo) hi.2).1
              refine Or.inr (h1.mk' rfl rfl rfl rfl (Or.inl rfl) (Or.inl rfl) (Or.inl hlo.symm) (Or.inl rfl) (Or.inl rfl) (Or.inr ⟨_, rfl, ?_, ?_⟩))
              · rw [hi1]; exact hi.2
              · rw [hi1]; exact hq
          · rw [if_neg hi]; exact Or.inr h1
        | nonLinear =>
          simp only
          cases hb : E.bound t.rhs t.info .upper with
          | error st => exact Or.inr hc
          | ok b =>
            rw [hc.rhs, hc.info] at hb
            exact Or.inr (hc.mk' rfl rfl rfl rfl (Or.inl rfl) (Or.inl rfl) (Or.inr ⟨b, rfl, hC.upper b hb⟩) (Or.inl rfl) (Or.inl rfl) (Or.inl rfl))
        | _ =>
          simp only
          split_ifs <;> first | exact inv_computeExact hC (Or.inr hc) | exact Or.inr hc
      · rw [if_neg hs]; exact Or.inr hc

theorem inv_reset {s : RecState} (h : Inv E e P Q s) : Inv E e P Q s.resetICs := by
  rcases h with ⟨h1, h2, h3, h4, h5, -⟩ | h
  · exact Or.inl ⟨h1, h2, h3, h4, h5, rfl, rfl, rfl, rfl⟩
  · refine Or.inr ⟨h.cl, h.rhs, h.info, h.exact, h.lower, h.upper, ?_, ?_, ?_, Or.inl rfl⟩ <;>
    · intro v hv; cases hv

theorem inv_setICs {s : RecState} (hC : Closed E e P Q) (h : Inv E e P Q s) (m : ICMap) : Inv E e P Q (RecState.setICs E s m).1 := by
  unfold RecState.setICs
  have key : ∀ t : RecState, Inv E e P Q t → t.ics = [] → Inv E e P Q (setICsClassified (t.classify E) m).1 := by
    intro t h hi
    have hc := cls_classify hC h
    have hi' : (t.classify E).ics = [] := (classify_fields E t).2.2.2.2.trans hi
    generalize t.classify E = t at hc hi'
    unfold setICsClassified
    by_cases hs : t.cl ≠ .success
    · rw [if_pos hs]; exact Or.inr hc
    · rw [if_neg hs]
      cases hk : checkICs t.info m with
      | accepted =>
        refine Or.inr ⟨hc.cl, hc.rhs, hc.info, hc.exact, hc.lower, hc.upper, ?_, ?_, ?_, Or.inr hk⟩
        · intro v hv; exact absurd hi' (hc.evE v hv).1
        · intro v hv; exact absurd hi' (hc.evL v hv).1
        · intro v hv; exact absurd hi' (hc.evU v hv).1
      | _ => exact Or.inr hc
  by_cases hi : s.ics ≠ []
  · rw [if_pos hi]; exact key _ (inv_reset h) rfl
  · rw [if_neg hi]; exact key _ h (not_not.mp hi)

theorem inv_query {s : RecState} (hC : Closed E e P Q) (h : Inv E e P Q s) (w : Which) : Inv E e P Q (query E w s).1 := by
  cases w with
  | exact =>
    show Inv E e P Q (RecState.getExact E s).1
    cases hx : s.exact with
    | none => rw [getExact_none hx]; exact h
    | some x =>
      rw [getExact_some hx]
      rcases h with h | h
      · rw [h.2.2.1] at hx; cases hx
      · refine Or.inr ?_
        have hp := h.exact x hx
        by_cases hi : s.ics = []
        · rw [if_pos hi]
          exact h.mk' rfl rfl rfl rfl (Or.inr ⟨_, rfl, hC.rename _ x hp⟩) (Or.inl rfl) (Or.inl rfl) (Or.inl rfl) (Or.inl rfl) (Or.inl rfl)
        · rw [if_neg hi]
          by_cases hv : s.evExact.isSome
          · rw [if_pos hv]
            exact h.mk' rfl rfl rfl rfl (Or.inl rfl) (Or.inl rfl) (Or.inl rfl) (Or.inl rfl) (Or.inl rfl) (Or.inl rfl)
          · rw [if_neg hv]
            have hq := (h.onIC hC hp hi).2
            obtain ⟨ql, qu⟩ := hC.evBoth _ _ hq
            exact h.mk' rfl rfl rfl rfl (Or.inl rfl) (Or.inl rfl) (Or.inl rfl) (Or.inr ⟨_, rfl, hi, hq⟩) (Or.inr ⟨_, rfl, hi, ql⟩) (Or.inr ⟨_, rfl, hi, qu⟩)
  | lower =>
    show Inv E e P Q (RecState.getLower E s).1
    cases hx : s.lower with
    | none => rw [getLower_none hx]; exact h
    | some x =>
      rw [getLower_some hx]
      rcases h with h | h
      · rw [h.2.2.2.1] at hx; cases hx
      · refine Or.inr ?_
        have hp := h.lower x hx
        by_cases hi : s.ics = []
        · rw [if_pos hi]
          exact h.mk' rfl rfl rfl rfl (Or.inl rfl) (Or.inr ⟨_, rfl, hC.rename _ x hp⟩) (Or.inl rfl) (Or.inl rfl) (Or.inl rfl) (Or.inl rfl)
        · rw [if_neg hi]
          by_cases hv : s.evLower.isSome
          · rw [if_pos hv]
            exact h.mk' rfl rfl rfl rfl (Or.inl rfl) (Or.inl rfl) (Or.inl rfl) (Or.inl rfl) (Or.inl rfl) (Or.inl rfl)
          · rw [if_neg hv]
            have hq := (h.onIC hC hp hi).2
            exact h.mk' rfl rfl rfl rfl (Or.inl rfl) (Or.inl rfl) (Or.inl rfl) (Or.inl rfl) (Or.inr ⟨_, rfl, hi, hq⟩) (Or.inl rfl)
  | upper =>
    show Inv E e P Q (RecState.getUpper E s).1
    cases hx : s.upper with
    | none => rw [getUpper_none hx]; exact h
    | some x =>
      rw [getUpper_some hx]
      rcases h with h | h
      · rw [h.2.2.2.2.1] at hx; cases hx
      · refine Or.inr ?_
        have hp := h.upper x hx
        by_cases hi : s.ics = []
        · rw [if_pos hi]
          exact h.mk' rfl rfl rfl rfl (Or.inl rfl) (Or.inl rfl) (Or.inr ⟨_, rfl, hC.rename _ x hp⟩) (Or.inl rfl) (Or.inl rfl) (Or.inl rfl)
        · rw [if_neg hi]
          by_cases hv : s.evUpper.isSome
          · rw [if_pos hv]
            exact h.mk' rfl rfl rfl rfl (Or.inl rfl) (Or.inl rfl) (Or.inl rfl) (Or.inl rfl) (Or.inl rfl) (Or.inl rfl)
          · rw [if_neg hv]
            have hq := (h.onIC hC hp hi).2
            exact h.mk' rfl rfl rfl rfl (Or.inl rfl) (Or.inl rfl) (Or.inl rfl) (Or.inl rfl) (Or.inl rfl) (Or.inr ⟨_, rfl, hi, hq⟩)

theorem inv_reach {s : RecState} (hC : Closed E e P Q) (h : RecReach E e s) : Inv E e P Q s := by
  induction h with
  | new => exact Or.inl ⟨rfl, rfl, rfl, rfl, rfl, rfl, rfl, rfl, rfl⟩
  | step op _ ih =>
    cases op with
    | setICs m => exact inv_setICs hC ih m
    | resetICs => exact inv_reset ih
    | computeExact => exact inv_computeExact hC ih
    | computeLower => exact inv_computeLower hC ih
    | computeUpper => exact inv_computeUpper hC ih
    | getExact => exact inv_query hC ih .exact
    | getLower => exact inv_query hC ih .lower
    | getUpper => exact inv_query hC ih .upper

/-- The answers after any history: `P` without initial conditions, `Q` of the initial conditions in force with them. -/
theorem answers {s : RecState} (hC : Closed E e P Q) (h : RecReach E e s) {w : Which} {v : Expr} (hv : (query E w s).2 = some v) :
    (s.ics = [] → P w v) ∧ (s.ics ≠ [] → checkICs (E.classify e).2.1 s.ics = .accepted ∧ Q w s.ics v) ∧
      s.info = (E.classify e).2.1 := by
  have hI := inv_reach hC h
  have main : ∀ (c ev : RecState → Option Expr), (∀ x, c s = some x → Cls E e P Q s → P w x) →
      (∀ v, ev s = some v → Cls E e P Q s → s.ics ≠ [] ∧ Q w s.ics v) → (Cls E e P Q s ∨ c s = none) →
      (match c s with
        | none => none
        | some x => if s.ics = [] then some (E.rename x) else if (ev s).isSome then ev s
            else some (E.rename (E.onIC s.rhs s.info s.ics x))) = some v →
      (s.ics = [] → P w v) ∧ (s.ics ≠ [] → checkICs (E.classify e).2.1 s.ics = .accepted ∧ Q w s.ics v) ∧ s.info = (E.classify e).2.1 := by
    intro c ev h1 h2 h3 h4
    cases hx : c s with
    | none => rw [hx] at h4; cases h4
    | some x =>
      rw [hx] at h4 h3
      have hc := h3.resolve_right (by simp)
      have hp := h1 x hx hc
      simp only at h4
      by_cases hi : s.ics = []
      · rw [if_pos hi, Option.some.injEq] at h4
        subst h4
        exact ⟨fun _ => hC.rename w x hp, fun h => absurd hi h, hc.info⟩
      · rw [if_neg hi] at h4
        refine ⟨fun h => absurd h hi, fun _ => ⟨hc.info ▸ hc.acc.resolve_left hi, ?_⟩, hc.info⟩
        by_cases hev : (ev s).isSome
        · rw [if_pos hev] at h4
          exact (h2 v h4 hc).2
        · rw [if_neg hev, Option.some.injEq] at h4
          subst h4
          exact (hc.onIC hC hp hi).2
  cases w with
  | exact =>
    refine main RecState.exact RecState.evExact (fun x hx h => h.exact x hx) (fun v hv h => h.evE v hv)
      (hI.elim (fun h => Or.inr h.2.2.1) Or.inl) ?_
    rw [← hv, query]
    cases hx : s.exact with
    | none => rw [getExact_none hx]
    | some x => rw [getExact_some hx]; simp only; split_ifs <;> rfl
  | lower =>
    refine main RecState.lower RecState.evLower (fun x hx h => h.lower x hx) (fun v hv h => h.evL v hv)
      (hI.elim (fun h => Or.inr h.2.2.2.1) Or.inl) ?_
    rw [← hv, query]
    cases hx : s.lower with
    | none => rw [getLower_none hx]
    | some x => rw [getLower_some hx]; simp only; split_ifs <;> rfl
  | upper =>
    refine main RecState.upper RecState.evUpper (fun x hx h => h.upper x hx) (fun v hv h => h.evU v hv)
      (hI.elim (fun h => Or.inr h.2.2.2.2.1) Or.inl) ?_
    rw [← hv, query]
    cases hx : s.upper with
    | none => rw [getUpper_none hx]
    | some x => rw [getUpper_some hx]; simp only; split_ifs <;> rfl

/-! ### Functional equations -/

section
open Bounds (val Satisfies)
open OnIC (Shape)

/-- The sense of a bound: what is asked for, the bound, the value bounded. -/
def Sense : Which → ℝ → ℝ → Prop
  | .exact, u, v => u = v
  | .lower, u, v => u ≤ v
  | .upper, u, v => v ≤ u

/-- The function satisfies `x(n) = a x(n/b) + g(n)` from `b` on and takes the (numeric) values given. -/
def FitsDiv (ξ : ℝ → ℝ) (a : ℝ) (b : ℕ) (g : ℕ → ℝ) (m : ICMap) : Prop :=
  Satisfies ξ a b g ∧ ∀ p ∈ m, ∀ q : ℚ, p.2 = .num q → ξ (p.1 : ℝ) = q

/-- What is assumed of the parts of the library behind the object for the functional equation `x(n) = a x(n/b) + g(n)`: the bounds computed
are in `L` and `U`, two classes without common members that renaming preserves; the members of `L` (`U`) are lower (upper) bounds, at the
points `D`, of all functions with non-negative initial values that satisfy the equation, and for `b = 2` their only `x` is `x(1)`; the
initial conditions are applied by `compute_solution_or_bound_on_i_c`. -/
structure SoundFunctional (E : Engine) (O : OnIC.Ops) (n : String) (B : String → Prop) (ρ : String → ℝ) (e : Expr) (a : ℝ) (b : ℕ) (g : ℕ → ℝ)
    (D : ℕ → Prop) (L U : Expr → Prop) : Prop where
  classified : (E.classify e).1 ≠ .notYet
  ty : (E.classify e).2.1.ty = .functional
  divisor : (E.classify e).2.1.divisor = b
  lower : ∀ x, E.bound (E.classify e).2.2 (E.classify e).2.1 .lower = .ok x → L x
  upper : ∀ x, E.bound (E.classify e).2.2 (E.classify e).2.1 .upper = .ok x → U x
  renameL : ∀ x, L x → L (E.rename x)
  renameU : ∀ x, U x → U (E.rename x)
  apart : ∀ x, ¬ (L x ∧ U x)
  shape : b = 2 → ∀ x, L x ∨ U x → Shape B (fun q => q = 1) x
  soundL : ∀ x, L x → ∀ ξ : ℝ → ℝ, Satisfies ξ a b g → (∀ i : ℕ, 1 ≤ i → i < b → 0 ≤ ξ i) → ∀ N : ℕ, b ≤ N → D N → val ξ ρ n x N ≤ ξ N
  soundU : ∀ x, U x → ∀ ξ : ℝ → ℝ, Satisfies ξ a b g → (∀ i : ℕ, 1 ≤ i → i < b → 0 ≤ ξ i) → ∀ N : ℕ, b ≤ N → D N → ξ N ≤ val ξ ρ n x N
  onIC : ∃ d w' g' z s1, ∀ m x, E.onIC (E.classify e).2.2 (E.classify e).2.1 m x =
    (OnIC.evaluate O n (E.classify e).2.1 d w' g' z s1 m x).getD (.num 0)
  renameIC : ∀ x, hasX (E.rename x) = hasX x ∧ ∀ (ξ : ℝ → ℝ) (N : ℕ), val ξ ρ n (E.rename x) N = val ξ ρ n x N

variable {O : OnIC.Ops} {n : String} {B : String → Prop} {ρ : String → ℝ} {a : ℝ} {b : ℕ} {g : ℕ → ℝ} {D : ℕ → Prop} {L U : Expr → Prop}

/-- Accepted initial conditions are non-negative numbers for all the indices below the divisor. -/
theorem accepted_nonneg {info : Info} (ht : info.ty = .functional) (hd : info.divisor = b) {m : ICMap} (ha : checkICs info m = .accepted)
    {i : ℕ} (h1 : 1 ≤ i) (h2 : i < b) : ∃ q : ℚ, 0 ≤ q ∧ (i, Expr.num q) ∈ m := by
  have hc : checkFunctional info m = .accepted := by
    have := ha
    unfold checkICs at this
    rwa [ht] at this
  unfold checkFunctional at hc
  by_cases hl : m.length ≠ info.divisor - 1
  · rw [if_pos hl] at hc; cases hc
  · rw [if_neg hl] at hc
    obtain ⟨k1, k2⟩ := (funLoop_iff _ _ _ (not_not.mp hl).symm).mp hc
    have hi : i ∈ m.map Prod.fst := by
      rw [k1, List.mem_range'_1]; omega
    obtain ⟨p, hp, rfl⟩ := List.mem_map.mp hi
    obtain ⟨q, hq, hv⟩ := k2 p hp
    exact ⟨q, hq, by rw [← hv]; exact hp⟩

/-- The classes of the answers. -/
def FP (L U : Expr → Prop) : Cl
  | .exact, x => L x ∧ U x
  | .lower, x => L x
  | .upper, x => U x

/-- The classes of the answers on initial conditions. -/
def FQ (n : String) (ρ : String → ℝ) (a : ℝ) (b : ℕ) (g : ℕ → ℝ) (D : ℕ → Prop) : Which → ICMap → Expr → Prop
  | .exact, _, _ => False
  | k, m, v => (b = 2 → hasX v = false) ∧ ∀ ξ : ℝ → ℝ, FitsDiv ξ a b g m → ∀ N : ℕ, b ≤ N → D N → Sense k (val ξ ρ n v N) (ξ N)

theorem functional_onIC (hS : SoundFunctional E O n B ρ e a b g D L U) {x : Expr} {m : ICMap} (hx : L x ∨ U x)
    (ha : checkICs (E.classify e).2.1 m = .accepted) :
    (b = 2 → hasX (E.onIC (E.classify e).2.2 (E.classify e).2.1 m x) = false) ∧
    ∀ ξ : ℝ → ℝ, FitsDiv ξ a b g m → ∀ N : ℕ, val ξ ρ n (E.onIC (E.classify e).2.2 (E.classify e).2.1 m x) N = val ξ ρ n x N := by
  obtain ⟨d, w', g', z, s1, hon⟩ := hS.onIC
  rw [hon]
  by_cases hb : b = 2
  · obtain ⟨q, t, hq, rfl, ht, hxt, hval⟩ := OnIC.C124_divisor_two_partial (hS.shape hb x hx) O (E.classify e).2.1 hS.ty
      (hS.divisor.trans hb) d w' g' z s1 (n := n) ha
    rw [ht, Option.getD_some]
    refine ⟨fun _ => hxt, fun ξ hξ N => hval ξ ρ ?_ N ξ⟩
    have := hξ.2 (1, .num q) (by simp) q rfl
    simpa using this
  · refine ⟨fun h => absurd h hb, fun ξ _ N => ?_⟩
    have : OnIC.evaluate O n (E.classify e).2.1 d w' g' z s1 m x = some x := by
      unfold OnIC.evaluate
      split_ifs
      · rfl
      · rw [hS.ty]
        simp only [OnIC.functional]
        rw [if_neg]
        rw [hS.divisor]
        exact_mod_cast hb
    rw [this, Option.getD_some]

theorem closed_functional (hS : SoundFunctional E O n B ρ e a b g D L U) : Closed E e (FP L U) (FQ n ρ a b g D) := by
  have main : ∀ k x m, FP L U k x → checkICs (E.classify e).2.1 m = .accepted → ∀ v, (hasX v = hasX (E.onIC (E.classify e).2.2 (E.classify e).2.1 m x)) →
      (∀ (ξ : ℝ → ℝ) (N : ℕ), val ξ ρ n v N = val ξ ρ n (E.onIC (E.classify e).2.2 (E.classify e).2.1 m x) N) → FQ n ρ a b g D k m v := by
    intro k x m hx ha v h1 h2
    have hpos : ∀ ξ : ℝ → ℝ, FitsDiv ξ a b g m → ∀ i : ℕ, 1 ≤ i → i < b → 0 ≤ ξ i := by
      intro ξ hξ i hi hib
      obtain ⟨q, hq, hm⟩ := accepted_nonneg hS.ty hS.divisor ha hi hib
      rw [hξ.2 _ hm q rfl]
      exact_mod_cast hq
    cases k with
    | exact => exact absurd hx (hS.apart x)
    | lower =>
      obtain ⟨k1, k2⟩ := functional_onIC hS (Or.inl hx) ha
      refine ⟨fun hb => h1.trans (k1 hb), fun ξ hξ N hN hD => ?_⟩
      rw [h2, k2 ξ hξ]
      exact hS.soundL x hx ξ hξ.1 (hpos ξ hξ) N hN hD
    | upper =>
      obtain ⟨k1, k2⟩ := functional_onIC hS (Or.inr hx) ha
      refine ⟨fun hb => h1.trans (k1 hb), fun ξ hξ N hN hD => ?_⟩
      rw [h2, k2 ξ hξ]
      exact hS.soundU x hx ξ hξ.1 (hpos ξ hξ) N hN hD
  exact {
    classified := hS.classified
    ty := by simp [hS.ty]
    solve := fun b x h => absurd hS.ty h
    lower := hS.lower
    upper := hS.upper
    rename := by
      intro k x hx
      cases k with
      | exact => exact absurd hx (hS.apart x)
      | lower => exact hS.renameL x hx
      | upper => exact hS.renameU x hx
    both := fun x => Iff.rfl
    apart := fun _ x => hS.apart x
    onIC := fun k x m hx ha => main k x m hx ha _ rfl fun _ _ => rfl
    onICr := fun k x m hx ha => main k x m hx ha _ (hS.renameIC _).1 fun ξ N => (hS.renameIC _).2 ξ N
    evBoth := fun m v h => h.elim }

/-- **C140.**  Whatever calls were made before, for a functional equation `x(n) = a x(n/b) + g(n)` an answer of `lower_bound()`
(`upper_bound()`) is a bound: without initial conditions of every function with non-negative initial values that satisfies the equation,
with initial conditions in force of every function that takes these values and satisfies the equation, and then, if `b = 2`, the answer
does not contain `x`. -/
theorem C140_answer_is_bound (hS : SoundFunctional E O n B ρ e a b g D L U) {s : RecState} (h : RecReach E e s) {w : Which} {v : Expr}
    (hv : (query E w s).2 = some v) (ξ : ℝ → ℝ) (hξ : FitsDiv ξ a b g s.ics) (hpos : s.ics = [] → ∀ i : ℕ, 1 ≤ i → i < b → 0 ≤ ξ i) :
    w ≠ .exact ∧ (s.ics ≠ [] → b = 2 → hasX v = false) ∧ ∀ N : ℕ, b ≤ N → D N → Sense w (val ξ ρ n v N) (ξ N) := by
  obtain ⟨h1, h2, -⟩ := answers (closed_functional hS) h hv
  by_cases hi : s.ics = []
  · have hp := h1 hi
    cases w with
    | exact => exact absurd hp (hS.apart v)
    | lower => exact ⟨by simp, fun h => absurd hi h, fun N hN hD => hS.soundL v hp ξ hξ.1 (hpos hi) N hN hD⟩
    | upper => exact ⟨by simp, fun h => absurd hi h, fun N hN hD => hS.soundU v hp ξ hξ.1 (hpos hi) N hN hD⟩
  · have hq := (h2 hi).2
    cases w with
    | exact => exact hq.elim
    | lower => exact ⟨by simp, fun _ => hq.1, fun N hN hD => hq.2 ξ hξ N hN hD⟩
    | upper => exact ⟨by simp, fun _ => hq.1, fun N hN hD => hq.2 ξ hξ N hN hD⟩

/-! ### A concrete case: `x(n) = 2 x(n/2)` -/

/-- The bound of `x(n) = 2 x(n/2)` computed by `approximate_functional_equation`. -/
def halfBound : BoundKind → Expr
  | .lower => Bounds.initialTerm "n" .lower 0 2 2
  | .upper => Bounds.initialTerm "n" .upper 0 2 2

/-- The right-hand side `2 x(n/2)`. -/
def halfRhs : Expr := .mul [.num 2, .fn .x [.mul [.num (1 / 2), .sym "n"]]]

/-- The engine that knows `x(n) = 2 x(n/2)`. -/
def halfEngine : Engine where
  classify := fun e => (.success, ⟨.functional, 1, 1, 2⟩, e)
  solve := fun _ _ _ => .error .tooComplex
  bound := fun _ _ k => .ok (halfBound k)
  onIC := fun _ info m x => (OnIC.evaluate OnIC.exOps "n" info ⟨0, .num 0, .num 0⟩ (.num 0) (.num 0) 0 (.num 0) m x).getD (.num 0)
  rename := id

theorem half_approx (cmp : Expr → Expr → Bounds.Cmp) (S : Bounds.Sums) (t : Bounds.Ty) :
    Bounds.approximate "n" cmp S t (.num 2) (2 : ℕ) (.num 0) [] 0 = some (Bounds.initialTerm "n" t 0 2 2) := by
  have h := NonLinear.approx_hom "n" cmp S t (a := 2) (b := 2) 0 (by norm_num) le_rfl
  rw [NonLinear.addE_zero] at h
  exact_mod_cast h

theorem half_shape (t : Bounds.Ty) : Shape (fun _ => False) (fun q => q = 1) (Bounds.initialTerm "n" t 0 2 2) := by
  obtain ⟨w, h1, h2, -⟩ := OnIC.C124_nonvacuous "n" t 2 (by norm_num) (fun _ _ => .equal) Bounds.noSums
  have := half_approx (fun _ _ => .equal) Bounds.noSums t
  push_cast at this
  rw [this] at h1
  cases h1
  exact h2

theorem half_apart : Bounds.initialTerm "n" .lower 0 2 2 ≠ Bounds.initialTerm "n" .upper 0 2 2 := by
  intro h
  have h2 := congrArg (fun e => val (fun _ => 1) (fun _ => 0) "n" e 1) h
  simp only [Bounds.initialTerm, val, eval_mulE, eval_powE, Bounds.fracLog, WeightedAvg.divE, Bounds.lnE] at h2
  have hu : ¬ (Bounds.Ty.upper = Bounds.Ty.lower) := by simp
  simp only [hu] at h2
  norm_num [eval, realInterp, realFn, eval_mulE, eval_powE, eval_subE] at h2

theorem half_sound (ρ : String → ℝ) : SoundFunctional halfEngine OnIC.exOps "n" (fun _ => False) ρ halfRhs 2 2 (fun _ => 0) (fun _ => True)
    (fun x => x = halfBound .lower) (fun x => x = halfBound .upper) where
  classified := by simp [halfEngine]
  ty := rfl
  divisor := rfl
  lower := by
    intro x h
    simp only [halfEngine, Except.ok.injEq] at h
    exact h.symm
  upper := by
    intro x h
    simp only [halfEngine, Except.ok.injEq] at h
    exact h.symm
  renameL := fun x hx => hx
  renameU := fun x hx => hx
  apart := by
    rintro x ⟨rfl, h⟩
    exact half_apart h
  shape := by
    rintro - x (rfl | rfl)
    · exact half_shape .lower
    · exact half_shape .upper
  soundL := by
    rintro x rfl ξ hξ hpos N hN -
    have hz : val ξ ρ "n" (.num 0) = fun _ => 0 := by
      funext m; simp [val, eval]
    exact Bounds.C39_lower_partial (a := 2) (Bounds.idealCmp_ok ξ ρ "n") le_rfl (Bounds.sums_none (S := Bounds.noSums) fun _ _ => rfl)
      (ds := []) (g := .num 0) (c := 0) (by intro m _; simp [hz]) (by simp) (by norm_num) (half_approx _ _ _)
      (by rw [hz]; exact_mod_cast hξ) hpos N hN trivial
  soundU := by
    rintro x rfl ξ hξ hpos N hN -
    have hz : val ξ ρ "n" (.num 0) = fun _ => 0 := by
      funext m; simp [val, eval]
    exact Bounds.C38_upper_partial (a := 2) (Bounds.idealCmp_ok ξ ρ "n") le_rfl (Bounds.sums_none (S := Bounds.noSums) fun _ _ => rfl)
      (ds := []) (g := .num 0) (c := 0) (by intro m _; simp [hz]) (by simp) (by norm_num) (half_approx _ _ _)
      (by rw [hz]; exact_mod_cast hξ) hpos N hN trivial
  onIC := ⟨⟨0, .num 0, .num 0⟩, .num 0, .num 0, 0, .num 0, fun _ _ => rfl⟩
  renameIC := fun _ => ⟨rfl, fun _ _ => rfl⟩

/-- The history: the lower bound is computed, `x(1) = 5` is given, the upper bound is computed. -/
def halfState : RecState :=
  (((RecState.new halfRhs).step halfEngine .computeLower).step halfEngine (.setICs [(1, .num 5)])).step halfEngine .computeUpper

theorem half_ics : halfState.ics = [(1, .num 5)] := by
  rfl

theorem half_query : ∃ v, (query halfEngine .upper halfState).2 = some v := by
  refine ⟨halfEngine.onIC halfRhs ⟨.functional, 1, 1, 2⟩ [(1, .num 5)] (halfBound .upper), ?_⟩
  rfl

/-- **C140**, a concrete case: all hypotheses hold, and after the history above the upper bound answered, which does not contain `x`, bounds
a function that satisfies the equation and takes the value `5` at `1`. -/
theorem C140_nonvacuous (ρ : String → ℝ) :
    SoundFunctional halfEngine OnIC.exOps "n" (fun _ => False) ρ halfRhs 2 2 (fun _ => 0) (fun _ => True)
      (fun x => x = halfBound .lower) (fun x => x = halfBound .upper) ∧
    RecReach halfEngine halfRhs halfState ∧
    ∃ ξ : ℝ → ℝ, FitsDiv ξ 2 2 (fun _ => 0) halfState.ics ∧ ξ 1 = 5 ∧ ξ 2 = 10 ∧
      ∃ v, (query halfEngine .upper halfState).2 = some v ∧ hasX v = false ∧ ∀ N : ℕ, 2 ≤ N → ξ N ≤ val ξ ρ "n" v N := by
  have hr : RecReach halfEngine halfRhs halfState := .step _ (.step _ (.step _ .new))
  obtain ⟨ξ, h1, h2⟩ := Bounds.exists_solution 2 (le_refl 2) (fun _ => 0) (fun _ => 5)
  have hx1 : ξ 1 = 5 := by simpa using h2 1 le_rfl (by norm_num)
  have hf : FitsDiv ξ 2 2 (fun _ => 0) halfState.ics := by
    refine ⟨h1, ?_⟩
    rw [half_ics]
    intro p hp q hq
    simp only [List.mem_singleton] at hp
    subst hp
    cases hq
    simpa using hx1
  refine ⟨half_sound ρ, hr, ξ, hf, hx1, ?_, ?_⟩
  · have := h1 2 le_rfl
    norm_num at this
    rw [this, hx1]
    norm_num
  · obtain ⟨v, hv⟩ := half_query
    have hne : halfState.ics ≠ [] := by rw [half_ics]; simp
    obtain ⟨-, k1, k2⟩ := C140_answer_is_bound (half_sound ρ) hr hv ξ hf fun h => absurd h hne
    exact ⟨v, hv, k1 hne rfl, fun N hN => k2 N hN trivial⟩

end

/-! ### `x(n) = c x(n-1)^a` -/

section
open NonLinear (simpleForm simpleSolution RealLog)
open OnIC (shape_onlyIC shape_simple)

variable {K : Type} [Field K] [CharZero K] {I : Interp K}

/-- What is assumed of the parts of the library behind the object for the non-linear recurrence `x(n) = c x(n-1)^a`: solver and bounds
answer with the solution of `simpleSolution`, which renaming leaves alone; the initial conditions are applied by
`compute_solution_or_bound_on_i_c`; renaming and the simplification keep the values of what comes out. -/
structure SoundPower (I : Interp K) (E : Engine) (O : OnIC.Ops) (n : String) (ρ : String → K) (e : Expr) (c a : ℚ) : Prop where
  classified : (E.classify e).1 ≠ .notYet
  ty : (E.classify e).2.1.ty = .nonLinear
  order : (E.classify e).2.1.order = 1
  first : (E.classify e).2.1.first = 0
  form : simpleForm n e = some (c, a)
  solve : ∀ b x, E.solve (E.classify e).2.2 (E.classify e).2.1 b = .ok x → x = simpleSolution n c a
  bound : ∀ k x, E.bound (E.classify e).2.2 (E.classify e).2.1 k = .ok x → x = simpleSolution n c a
  rename : E.rename (simpleSolution n c a) = simpleSolution n c a
  onIC : ∃ lin w' g' z s1, ∀ m x, E.onIC (E.classify e).2.2 (E.classify e).2.1 m x =
    (OnIC.evaluate O n (E.classify e).2.1 ⟨c, .num a, lin⟩ w' g' z s1 m x).getD (.num 0)
  renameIC : ∀ m (N : ℕ) Y, eval (withX I Y) (update ρ n N) (E.rename (E.onIC (E.classify e).2.2 (E.classify e).2.1 m (simpleSolution n c a))) =
    eval (withX I Y) (update ρ n N) (E.onIC (E.classify e).2.2 (E.classify e).2.1 m (simpleSolution n c a))
  simp : ∀ v (N : ℕ) Y, hasX v = false → eval (withX I Y) (update ρ n N) (O.simp (substitute (Verify.xAt 0) v (simpleSolution n c a))) =
    eval (withX I Y) (update ρ n N) (substitute (Verify.xAt 0) v (simpleSolution n c a))

/-- The last initial condition is `x(L) = v` with `v` free of `n`, sums, products and `x`. -/
structure LastIs (n : String) (m : ICMap) (L : ℕ) (v : Expr) : Prop where
  sorted : m.Sorted
  last : m.getLast? = some (L, v)
  plain : hasSumOrProd v = false
  noX : hasX v = false
  scalar : isScalarRep n v = true

/-- The sequence takes the value of `v` at `L` and satisfies the recurrence from `L + 1` on. -/
def Follows (I : Interp K) (n : String) (rhs : Expr) (ρ : String → K) (X : K → K) (L : ℕ) (v : Expr) : Prop :=
  (∀ Y : K → K, eval (withX I Y) ρ v = X L) ∧ SolvesAt I n rhs ρ X (L + 1)

/-- The answers on initial conditions, for the sequences in `T`. -/
def PQ (I : Interp K) (n : String) (rhs : Expr) (ρ : String → K) (T : (K → K) → ℕ → Prop) (m : ICMap) (w : Expr) : Prop :=
  ∀ L v, LastIs n m L v → ∀ X, T X L → Follows I n rhs ρ X L v → ∀ N : ℕ, L ≤ N → ∀ Y : K → K, eval (withX I Y) (update ρ n (N : K)) w = X N

variable {c a : ℚ} {ρ : String → K}

theorem power_hasIC (n : String) (hc : c ≠ 0) : Verify.hasIC n (simpleSolution n c a) = true := by
  have h1 := shape_onlyIC n (S := fun q => q = 0) (by rintro q rfl; simp) (shape_simple n c a)
  have h2 : hasX (simpleSolution n c a) = true := by
    by_contra h
    rw [Bool.not_eq_true] at h
    have := eval_noX ratInterp (fun _ => 0) (fun _ => 1) _ h (ρ := fun _ => 0)
    simp only [NonLinear.simpleSolution, eval_mulE, eval_powE] at this
    simp [eval, withX, ratInterp] at this
    exact zpow_ne_zero _ hc this.symm
  simp [Verify.hasIC, h1, h2]

theorem power_onIC {T : (K → K) → ℕ → Prop} (hS : SoundPower I E O n ρ e c a) (hc : c ≠ 0)
    (hT : ∀ lin m L v, LastIs n m L v → ∀ X, T X L → Follows I n e ρ X L v → ∀ w, OnIC.nonLinear O n 0 1 ⟨c, .num a, lin⟩ m (simpleSolution n c a) = some w →
      ∀ N : ℕ, L ≤ N → ∀ Y : K → K, eval (withX I Y) (update ρ n (N : K)) w = X N) (m : ICMap) :
    PQ I n e ρ T m (E.onIC (E.classify e).2.2 (E.classify e).2.1 m (simpleSolution n c a)) := by
  intro L v hl X hX hF N hN Y
  obtain ⟨lin, w', g', z, s1, hon⟩ := hS.onIC
  have he : OnIC.evaluate O n (E.classify e).2.1 ⟨c, .num a, lin⟩ w' g' z s1 m (simpleSolution n c a) =
      OnIC.nonLinear O n 0 1 ⟨c, .num a, lin⟩ m (simpleSolution n c a) := by
    unfold OnIC.evaluate
    rw [if_neg (by rw [power_hasIC n hc]; simp), hS.ty, hS.first, hS.order]
  have hs : ∃ w, OnIC.nonLinear O n 0 1 ⟨c, .num a, lin⟩ m (simpleSolution n c a) = some w := by
    unfold OnIC.nonLinear
    rw [hl.last]
    simp only
    split_ifs
    · exact ⟨_, rfl⟩
    · exact ⟨_, rfl⟩
    · exact ⟨_, rfl⟩
  obtain ⟨w, hw⟩ := hs
  rw [hon, he, hw, Option.getD_some]
  exact hT lin m L v hl X hX hF w hw N hN Y

theorem closed_power {T : (K → K) → ℕ → Prop} (hS : SoundPower I E O n ρ e c a)
    (hQ : ∀ m, PQ I n e ρ T m (E.onIC (E.classify e).2.2 (E.classify e).2.1 m (simpleSolution n c a))) :
    Closed E e (fun _ x => x = simpleSolution n c a) (fun _ m w => PQ I n e ρ T m w) where
  classified := hS.classified
  ty := by simp [hS.ty]
  solve := fun b x _ h => hS.solve b x h
  lower := hS.bound .lower
  upper := hS.bound .upper
  rename := by rintro k x rfl; exact hS.rename
  both := fun x => by simp
  apart := by simp [hS.ty]
  onIC := by rintro k x m rfl -; exact hQ m
  onICr := by
    rintro k x m rfl - L v hl X hX hF N hN Y
    rw [hS.renameIC]
    exact hQ m L v hl X hX hF N hN Y
  evBoth := fun m v h => ⟨h, h⟩

/-- **C141**, integer exponents `a ≥ 2`, `c ≠ 0`.  Whatever calls were made before, for `x(n) = c x(n-1)^a` every answer of
`exact_solution()`, `lower_bound()` and `upper_bound()` has the value of the sequence: without initial conditions of every sequence that
satisfies the recurrence from `1` on, with initial conditions in force the last of which is `x(L) = v`, of every sequence with this value
at `L` that satisfies the recurrence from `L + 1` on; and in the second case the value does not depend on `x`. -/
theorem C141_integer (hS : SoundPower I E O n ρ e c a) (ha : a.den = 1) (ha2 : 2 ≤ a) (hc : c ≠ 0) {s : RecState} (h : RecReach E e s) {w : Which}
    {v : Expr} (hv : (query E w s).2 = some v) :
    (s.ics = [] → ∀ X : K → K, SolvesAt I n e ρ X 1 → ∀ N : ℕ, eval (withX I X) (update ρ n (N : K)) v = X N) ∧
    (∀ L u, LastIs n s.ics L u → ∀ X : K → K, Follows I n e ρ X L u → ∀ N : ℕ, L ≤ N → ∀ Y : K → K, eval (withX I Y) (update ρ n (N : K)) v = X N) := by
  have hQ := power_onIC (T := fun _ _ => True) hS hc (by
    intro lin m L u hl X _ hF w hw N hN Y
    refine OnIC.C121_integer O hS.form ha ha2 hc lin hl.sorted hl.last hl.plain hl.noX hl.scalar ρ X hF.1 hF.2 hw
      (fun N Y => hS.simp u N Y hl.noX) N hN Y)
  obtain ⟨h1, h2, -⟩ := answers (closed_power hS hQ) h hv
  refine ⟨fun hi X hX N => ?_, fun L u hl X hF => ?_⟩
  · rw [h1 hi]
    exact NonLinear.C33_simple_integer I hS.form ha (by rintro rfl; norm_num at ha2) hc ρ X hX N
  · have hne : s.ics ≠ [] := by
      intro h0
      have := hl.last
      simp [h0] at this
    exact (h2 hne).2 L u hl X trivial hF

/-- **C141**, rational exponents `a ≠ 1` and `c > 0`, for the sequences with a positive initial value. -/
theorem C141_positive {I : Interp ℝ} {ρ : String → ℝ} (hI : RealLog I) (hS : SoundPower I E O n ρ e c a) (ha1 : a ≠ 1) (hc : 0 < c) {s : RecState}
    (h : RecReach E e s) {w : Which} {v : Expr} (hv : (query E w s).2 = some v) :
    (s.ics = [] → ∀ X : ℝ → ℝ, 0 < X 0 → SolvesAt I n e ρ X 1 → ∀ N : ℕ, eval (withX I X) (update ρ n (N : ℝ)) v = X N) ∧
    (∀ L u, LastIs n s.ics L u → ∀ X : ℝ → ℝ, 0 < X L → Follows I n e ρ X L u →
      ∀ N : ℕ, L ≤ N → ∀ Y : ℝ → ℝ, eval (withX I Y) (update ρ n (N : ℝ)) v = X N) := by
  have hQ := power_onIC (T := fun (X : ℝ → ℝ) (L : ℕ) => 0 < X L) hS hc.ne' (by
    intro lin m L u hl X hpos hF w hw N hN Y
    exact OnIC.C121_positive hI O hS.form ha1 hc lin hl.sorted hl.last hl.plain hl.noX hl.scalar ρ X hpos hF.1 hF.2 hw
      (fun N Y => hS.simp u N Y hl.noX) N hN Y)
  obtain ⟨h1, h2, -⟩ := answers (closed_power hS hQ) h hv
  refine ⟨fun hi X hpos hX N => ?_, fun L u hl X hpos hF => ?_⟩
  · rw [h1 hi]
    exact NonLinear.C33_simple_positive hI hS.form ha1 hc ρ X hpos hX N
  · have hne : s.ics ≠ [] := by
      intro h0
      have := hl.last
      simp [h0] at this
    exact (h2 hne).2 L u hl X hpos hF

/-! A concrete case: `x(n) = 3 x(n-1)^2`. -/

/-- The right-hand side `3 x(n-1)^2`. -/
def sqRhs : Expr := .mul [.num 3, .pow (.fn .x [.add [.sym "n", .num (-1)]]) (.num 2)]

/-- The engine that knows `x(n) = 3 x(n-1)^2`. -/
def sqEngine : Engine where
  classify := fun e => (.success, ⟨.nonLinear, 1, 0, 0⟩, e)
  solve := fun _ _ _ => .ok (simpleSolution "n" 3 2)
  bound := fun _ _ _ => .ok (simpleSolution "n" 3 2)
  onIC := fun _ info m x => (OnIC.evaluate OnIC.exOps "n" info ⟨3, .num 2, .num 0⟩ (.num 0) (.num 0) 0 (.num 0) m x).getD (.num 0)
  rename := id

theorem sq_sound (I : Interp K) (ρ : String → K) : SoundPower I sqEngine OnIC.exOps "n" ρ sqRhs 3 2 where
  classified := by simp [sqEngine]
  ty := rfl
  order := rfl
  first := rfl
  form := by simp [simpleForm, sqRhs]
  solve := by
    intro b x h
    simp only [sqEngine, Except.ok.injEq] at h
    exact h.symm
  bound := by
    intro b x h
    simp only [sqEngine, Except.ok.injEq] at h
    exact h.symm
  rename := rfl
  onIC := ⟨.num 0, .num 0, .num 0, 0, .num 0, fun _ _ => rfl⟩
  renameIC := fun _ _ _ => rfl
  simp := fun _ _ _ _ => rfl

/-- The history: the solution is computed, `x(0) = 1` is given, the solution is asked for, and `x(2) = 5` is given instead. -/
def sqState : RecState :=
  ((((RecState.new sqRhs).step sqEngine .computeExact).step sqEngine (.setICs [(0, .num 1)])).step sqEngine .getExact).step sqEngine
    (.setICs [(2, .num 5)])

theorem sq_ics : sqState.ics = [(2, .num 5)] := by
  rfl

theorem sq_query : ∃ v, (query sqEngine .lower sqState).2 = some v := by
  refine ⟨sqEngine.onIC sqRhs ⟨.nonLinear, 1, 0, 0⟩ [(2, .num 5)] (simpleSolution "n" 3 2), ?_⟩
  rfl

/-- **C141**, a concrete case: all hypotheses hold, there is a sequence with `x(2) = 5`, `x(3) = 75` that satisfies the recurrence, and
after the history above the answer has the value `75` at `3`. -/
theorem C141_nonvacuous (ρ : String → ℝ) :
    SoundPower (realInterp 0) sqEngine OnIC.exOps "n" ρ sqRhs 3 2 ∧ RecReach sqEngine sqRhs sqState ∧
    LastIs "n" sqState.ics 2 (.num 5) ∧ (∃ X : ℝ → ℝ, Follows (realInterp 0) "n" sqRhs ρ X 2 (.num 5) ∧ X 3 = 75) ∧
    ∃ v, (query sqEngine .lower sqState).2 = some v ∧ ∀ Y : ℝ → ℝ, eval (withX (realInterp 0) Y) (update ρ "n" ((3 : ℕ) : ℝ)) v = 75 := by
  have hr : RecReach sqEngine sqRhs sqState := .step _ (.step _ (.step _ (.step _ .new)))
  have hS := sq_sound (realInterp 0) ρ
  have hl : LastIs "n" sqState.ics 2 (.num 5) := by
    rw [sq_ics]
    exact ⟨by simp [ICMap.Sorted], by simp, by simp [hasSumOrProd], by simp [hasX], by simp [isScalarRep]⟩
  let f : ℕ → ℝ := fun k => Nat.rec 5 (fun _ y => 3 * y ^ 2) (k - 2)
  have hF : Follows (realInterp 0) "n" sqRhs ρ (fun t => f ⌊t⌋₊) 2 (.num 5) := by
    refine ⟨fun Y => by simp [eval, f], fun N hN => ?_⟩
    rw [NonLinear.eval_simpleForm _ hS.form]
    obtain ⟨M, rfl⟩ : ∃ M, N = M + 3 := ⟨N - 3, by omega⟩
    have h1 : (((M + 3 : ℕ) : ℝ) - 1) = ((M + 2 : ℕ) : ℝ) := by push_cast; ring
    rw [h1]
    simp only [Nat.floor_natCast, realInterp, f]
    rw [show M + 3 - 2 = M + 1 by omega, show M + 2 - 2 = M by omega]
    norm_num
  have h3 : f ⌊((3 : ℕ) : ℝ)⌋₊ = 75 := by
    rw [Nat.floor_natCast]
    norm_num [f]
  refine ⟨hS, hr, hl, ⟨_, hF, by exact_mod_cast h3⟩, ?_⟩
  obtain ⟨v, hv⟩ := sq_query
  refine ⟨v, hv, fun Y => ?_⟩
  rw [(C141_integer hS (by norm_num) le_rfl (by norm_num) hr hv).2 2 _ hl _ hF 3 (by norm_num) Y]
  exact h3

end

end Purrs.CapstoneBounds
