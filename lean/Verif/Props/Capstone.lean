import Verif.Props.OnICRest
import Verif.Props.RecurrenceEval

/-!
# The answers of the object after any history of calls (C136, C137)

The histories of `RecurrenceHist`, the application of the initial conditions of `OnIC` and the meaning of
the symbolic solution are put together.
-/

set_option linter.unusedSectionVars false

namespace Purrs.Capstone

open RecState
open Function (update update_of_ne update_self)
open OrderRed (withX eval_x eval_noX SolvesAt IsSolution)
open OrderRed (idxNe)
open OnIC (Shape Fresh LsolveOk Value LinearAt)

/-! ### An invariant of all histories -/

variable {E : Engine}

/-- `P` holds of what the solver returns, `Q m` of what is computed from it for the initial conditions `m`. -/
structure Closed (E : Engine) (e : Expr) (P : Expr → Prop) (Q : ICMap → Expr → Prop) : Prop where
  classified : (E.classify e).1 ≠ .notYet
  ty : (E.classify e).2.1.ty = .orderZero ∨ (E.classify e).2.1.ty = .linConst ∨ (E.classify e).2.1.ty = .linVar ∨
    (E.classify e).2.1.ty = .weighted ∨ (E.classify e).2.1.ty = .maxFn
  solve : ∀ b x, E.solve (E.classify e).2.2 (E.classify e).2.1 b = .ok x → P x
  rename : ∀ x, P x → P (E.rename x)
  onIC : ∀ x m, P x → checkICs (E.classify e).2.1 m = .accepted → Q m (E.onIC (E.classify e).2.2 (E.classify e).2.1 m x)
  onICr : ∀ x m, P x → checkICs (E.classify e).2.1 m = .accepted →
    Q m (E.rename (E.onIC (E.classify e).2.2 (E.classify e).2.1 m x))

/-- The invariant of a classified object. -/
structure Cls (E : Engine) (e : Expr) (P : Expr → Prop) (Q : ICMap → Expr → Prop) (s : RecState) : Prop where
  cl : s.cl = (E.classify e).1
  rhs : s.rhs = (E.classify e).2.2
  info : s.info = (E.classify e).2.1
  exact : ∀ x, s.exact = some x → P x
  lower : ∀ x, s.lower = some x → P x
  upper : ∀ x, s.upper = some x → P x
  evE : ∀ v, s.evExact = some v → s.ics ≠ [] ∧ Q s.ics v
  evL : ∀ v, s.evLower = some v → s.ics ≠ [] ∧ Q s.ics v
  evU : ∀ v, s.evUpper = some v → s.ics ≠ [] ∧ Q s.ics v
  acc : s.ics = [] ∨ checkICs s.info s.ics = .accepted

/-- The invariant of any object. -/
def Inv (E : Engine) (e : Expr) (P : Expr → Prop) (Q : ICMap → Expr → Prop) (s : RecState) : Prop :=
  (s.cl = .notYet ∧ s.rhs = e ∧ s.exact = none ∧ s.lower = none ∧ s.upper = none ∧
    s.evExact = none ∧ s.evLower = none ∧ s.evUpper = none ∧ s.ics = []) ∨ Cls E e P Q s

variable {e : Expr} {P : Expr → Prop} {Q : ICMap → Expr → Prop}

theorem cls_classify {s : RecState} (hC : Closed E e P Q) (h : Inv E e P Q s) : Cls E e P Q (s.classify E) := by
  rcases h with ⟨h1, h2, h3, h4, h5, h6, h7, h8, h9⟩ | h
  · unfold RecState.classify
    rw [if_neg (by simp [h1])]
    subst h2
    refine ⟨rfl, rfl, rfl, ?_, ?_, ?_, ?_, ?_, ?_, Or.inl h9⟩ <;> simp_all
  · unfold RecState.classify
    rw [if_pos (by rw [h.cl]; exact hC.classified)]
    exact h

theorem Cls.onIC {s : RecState} (hC : Closed E e P Q) (h : Cls E e P Q s) {x : Expr} (hx : P x) (hi : s.ics ≠ []) :
    Q s.ics (E.onIC s.rhs s.info s.ics x) ∧ Q s.ics (E.rename (E.onIC s.rhs s.info s.ics x)) := by
  have ha := h.acc.resolve_left hi
  rw [h.info] at ha
  rw [h.rhs, h.info]
  exact ⟨hC.onIC x _ hx ha, hC.onICr x _ hx ha⟩

/-- All fields but the caches are kept, the caches are right. -/
theorem Cls.mk' {s t : RecState} (h : Cls E e P Q s) (h1 : t.cl = s.cl) (h2 : t.rhs = s.rhs) (h3 : t.info = s.info) (h4 : t.ics = s.ics)
    (hE : t.exact = s.exact ∨ ∃ x, t.exact = some x ∧ P x) (hL : t.lower = s.lower ∨ ∃ x, t.lower = some x ∧ P x)
    (hU : t.upper = s.upper ∨ ∃ x, t.upper = some x ∧ P x)
    (vE : t.evExact = s.evExact ∨ ∃ v, t.evExact = some v ∧ s.ics ≠ [] ∧ Q s.ics v)
    (vL : t.evLower = s.evLower ∨ ∃ v, t.evLower = some v ∧ s.ics ≠ [] ∧ Q s.ics v)
    (vU : t.evUpper = s.evUpper ∨ ∃ v, t.evUpper = some v ∧ s.ics ≠ [] ∧ Q s.ics v) : Cls E e P Q t := by
  refine ⟨h1.trans h.cl, h2.trans h.rhs, h3.trans h.info, ?_, ?_, ?_, ?_, ?_, ?_, by rw [h4, h3]; exact h.acc⟩
  · intro x hx
    rcases hE with hE | ⟨y, hE, hy⟩
    · exact h.exact x (hE ▸ hx)
    · rw [hE] at hx; cases hx; exact hy
  · intro x hx
    rcases hL with hE | ⟨y, hE, hy⟩
    · exact h.lower x (hE ▸ hx)
    · rw [hE] at hx; cases hx; exact hy
  · intro x hx
    rcases hU with hE | ⟨y, hE, hy⟩
    · exact h.upper x (hE ▸ hx)
    · rw [hE] at hx; cases hx; exact hy
  · intro x hx
    rw [h4]
    rcases vE with hE | ⟨y, hE, hy⟩
    · exact h.evE x (hE ▸ hx)
    · rw [hE] at hx; cases hx; exact hy
  · intro x hx
    rw [h4]
    rcases vL with hE | ⟨y, hE, hy⟩
    · exact h.evL x (hE ▸ hx)
    · rw [hE] at hx; cases hx; exact hy
  · intro x hx
    rw [h4]
    rcases vU with hE | ⟨y, hE, hy⟩
    · exact h.evU x (hE ▸ hx)
    · rw [hE] at hx; cases hx; exact hy

theorem cls_computeFinite {s : RecState} (hC : Closed E e P Q) (h : Cls E e P Q s) : Cls E e P Q (computeFinite E s).1 := by
  unfold computeFinite
  cases hs : E.solve s.rhs s.info (!s.ics.isEmpty) with
  | error st => exact h
  | ok x =>
    have hx : P x := by
      rw [h.rhs, h.info] at hs
      exact hC.solve _ _ hs
    simp only
    by_cases hi : s.ics ≠ [] ∧ s.info.order > 0
    · rw [if_pos hi]
      have hq := (h.onIC hC hx hi.1).2
      exact h.mk' rfl rfl rfl rfl (Or.inr ⟨x, rfl, hx⟩) (Or.inr ⟨x, rfl, hx⟩) (Or.inr ⟨x, rfl, hx⟩)
        (Or.inr ⟨_, rfl, hi.1, hq⟩) (Or.inr ⟨_, rfl, hi.1, hq⟩) (Or.inr ⟨_, rfl, hi.1, hq⟩)
    · rw [if_neg hi]
      exact h.mk' rfl rfl rfl rfl (Or.inr ⟨x, rfl, hx⟩) (Or.inr ⟨x, rfl, hx⟩) (Or.inr ⟨x, rfl, hx⟩)
        (Or.inl rfl) (Or.inl rfl) (Or.inl rfl)

theorem cls_computeOther {s : RecState} (hC : Closed E e P Q) (h : Cls E e P Q s) : Cls E e P Q (computeOther E s).1 := by
  unfold computeOther
  cases hs : E.solve s.rhs s.info (!s.ics.isEmpty) with
  | error st => exact h
  | ok x =>
    have hx : P x := by
      rw [h.rhs, h.info] at hs
      exact hC.solve _ _ hs
    simp only
    by_cases hi : s.ics ≠ []
    · rw [if_pos hi]
      have hq := (h.onIC hC hx hi).1
      exact h.mk' rfl rfl rfl rfl (Or.inr ⟨x, rfl, hx⟩) (Or.inr ⟨x, rfl, hx⟩) (Or.inr ⟨x, rfl, hx⟩)
        (Or.inr ⟨_, rfl, hi, hq⟩) (Or.inr ⟨_, rfl, hi, hq⟩) (Or.inr ⟨_, rfl, hi, hq⟩)
    · rw [if_neg hi]
      exact h.mk' rfl rfl rfl rfl (Or.inr ⟨x, rfl, hx⟩) (Or.inr ⟨x, rfl, hx⟩) (Or.inr ⟨x, rfl, hx⟩)
        (Or.inl rfl) (Or.inl rfl) (Or.inl rfl)

theorem cls_computeMax {s : RecState} (hC : Closed E e P Q) (h : Cls E e P Q s) (ht : s.info.ty = .maxFn) : Cls E e P Q (computeMax E s).1 := by
  unfold computeMax
  cases hs : E.solve s.rhs s.info (!s.ics.isEmpty) with
  | error st => exact h
  | ok x =>
    have hx : P x := by
      rw [h.rhs, h.info] at hs
      exact hC.solve _ _ hs
    have hi : s.ics = [] := by
      refine h.acc.resolve_right fun ha => ?_
      simp [checkICs, ht] at ha
    simp only
    rw [if_neg (by simp [hi])]
    exact h.mk' rfl rfl rfl rfl (Or.inr ⟨x, rfl, hx⟩) (Or.inl rfl) (Or.inl rfl) (Or.inl rfl) (Or.inl rfl) (Or.inl rfl)

theorem Inv.tried {s : RecState} (h : Inv E e P Q s) (b : Bool) : Inv E e P Q { s with tried := b } := by
  rcases h with h | h
  · exact Or.inl h
  · exact Or.inr (h.mk' rfl rfl rfl rfl (Or.inl rfl) (Or.inl rfl) (Or.inl rfl) (Or.inl rfl) (Or.inl rfl) (Or.inl rfl))

theorem inv_computeExact {s0 : RecState} (hC : Closed E e P Q) (h0 : Inv E e P Q s0) : Inv E e P Q (computeExact E s0).1 := by
  unfold computeExact
  have h := h0.tried true
  generalize { s0 with tried := true } = s at h
  cases hx : s.exact with
  | some x =>
    rw [computeExactTried_some hx]
    rcases h with h | h
    · rw [h.2.2.1] at hx; cases hx
    · by_cases hi : s.ics ≠ [] ∧ s.evExact = none
      · rw [if_pos hi]
        have hq := (h.onIC hC (h.exact x hx) hi.1).1
        exact Or.inr (h.mk' rfl rfl rfl rfl (Or.inl rfl) (Or.inl rfl) (Or.inl rfl)
          (Or.inr ⟨_, rfl, hi.1, hq⟩) (Or.inr ⟨_, rfl, hi.1, hq⟩) (Or.inr ⟨_, rfl, hi.1, hq⟩))
      · rw [if_neg hi]; exact Or.inr h
  | none =>
    by_cases hlu : s.lower ≠ none ∧ s.lower = s.upper
    · rw [computeExactTried_eq hx hlu]
      rcases h with h | h
      · exact absurd h.2.2.2.1 hlu.1
      · obtain ⟨l, hl⟩ := Option.ne_none_iff_exists'.mp hlu.1
        exact Or.inr (h.mk' rfl rfl rfl rfl (Or.inr ⟨l, hl, h.lower l hl⟩) (Or.inl rfl) (Or.inl rfl) (Or.inl rfl) (Or.inl rfl) (Or.inl rfl))
    · rw [computeExactTried_fresh hx hlu]
      have hc := cls_classify hC h
      generalize s.classify E = t at hc
      refine Or.inr ?_
      have ht : t.info.ty = .orderZero ∨ t.info.ty = .linConst ∨ t.info.ty = .linVar ∨ t.info.ty = .weighted ∨
          t.info.ty = .maxFn := by
        rw [hc.info]; exact hC.ty
      by_cases hs : t.cl = .success
      · rw [if_pos hs]
        rcases ht with ht | ht | ht | ht | ht <;> rw [ht]
        · exact cls_computeFinite hC hc
        · exact cls_computeFinite hC hc
        · exact cls_computeFinite hC hc
        · exact cls_computeOther hC hc
        · exact cls_computeMax hC hc ht
      · rw [if_neg hs]; exact hc

theorem inv_computeLower {s : RecState} (hC : Closed E e P Q) (h : Inv E e P Q s) : Inv E e P Q (computeLower E s).1 := by
  cases hl : s.lower with
  | some l =>
    rw [computeLower_some hl]
    rcases h with h | h
    · rw [h.2.2.2.1] at hl; cases hl
    · by_cases hi : s.ics ≠ [] ∧ s.evLower = none
      · rw [if_pos hi]
        have hq := (h.onIC hC (h.lower l hl) hi.1).1
        exact Or.inr (h.mk' rfl rfl rfl rfl (Or.inl rfl) (Or.inl rfl) (Or.inl rfl)
          (Or.inl rfl) (Or.inr ⟨_, rfl, hi.1, hq⟩) (Or.inl rfl))
      · rw [if_neg hi]; exact Or.inr h
  | none =>
    cases hx : s.exact with
    | some x =>
      rw [computeLower_exact hl hx]
      rcases h with h | h
      · rw [h.2.2.1] at hx; cases hx
      · have hp := h.exact x hx
        by_cases hi : s.ics ≠ [] ∧ s.evLower = none
        · rw [if_pos hi]
          have hq := (h.onIC hC hp hi.1).1
          exact Or.inr (h.mk' rfl rfl rfl rfl (Or.inl rfl) (Or.inr ⟨x, rfl, hp⟩) (Or.inl rfl)
            (Or.inr ⟨_, rfl, hi.1, hq⟩) (Or.inr ⟨_, rfl, hi.1, hq⟩) (Or.inl rfl))
        · rw [if_neg hi]
          exact Or.inr (h.mk' rfl rfl rfl rfl (Or.inl rfl) (Or.inr ⟨x, rfl, hp⟩) (Or.inl rfl) (Or.inl rfl) (Or.inl rfl) (Or.inl rfl))
    | none =>
      rw [computeLower_fresh hl hx]
      have hc := cls_classify hC h
      generalize s.classify E = t at hc
      have ht : t.info.ty = .orderZero ∨ t.info.ty = .linConst ∨ t.info.ty = .linVar ∨ t.info.ty = .weighted ∨
          t.info.ty = .maxFn := by
        rw [hc.info]; exact hC.ty
      by_cases hs : t.cl = .success
      · rw [if_pos hs]
        rcases ht with ht | ht | ht | ht | ht <;> rw [ht] <;> simp only <;> (try split_ifs) <;>
          first | exact inv_computeExact hC (Or.inr hc) | exact Or.inr hc
      · rw [if_neg hs]; exact Or.inr hc

theorem inv_computeUpper {s : RecState} (hC : Closed E e P Q) (h : Inv E e P Q s) : Inv E e P Q (computeUpper E s).1 := by
  cases hl : s.upper with
  | some l =>
    rw [computeUpper_some hl]
    rcases h with h | h
    · rw [h.2.2.2.2.1] at hl; cases hl
    · by_cases hi : s.ics ≠ [] ∧ s.evUpper = none
      · rw [if_pos hi]
        have hq := (h.onIC hC (h.upper l hl) hi.1).1
        exact Or.inr (h.mk' rfl rfl rfl rfl (Or.inl rfl) (Or.inl rfl) (Or.inl rfl)
          (Or.inl rfl) (Or.inl rfl) (Or.inr ⟨_, rfl, hi.1, hq⟩))
      · rw [if_neg hi]; exact Or.inr h
  | none =>
    cases hx : s.exact with
    | some x =>
      rw [computeUpper_exact hl hx]
      rcases h with h | h
      · rw [h.2.2.1] at hx; cases hx
      · have hp := h.exact x hx
        by_cases hi : s.ics ≠ [] ∧ s.evUpper = none
        · rw [if_pos hi]
          have hq := (h.onIC hC hp hi.1).1
          exact Or.inr (h.mk' rfl rfl rfl rfl (Or.inl rfl) (Or.inl rfl) (Or.inr ⟨x, rfl, hp⟩)
            (Or.inr ⟨_, rfl, hi.1, hq⟩) (Or.inl rfl) (Or.inr ⟨_, rfl, hi.1, hq⟩))
        · rw [if_neg hi]
          exact Or.inr (h.mk' rfl rfl rfl rfl (Or.inl rfl) (Or.inl rfl) (Or.inr ⟨x, rfl, hp⟩) (Or.inl rfl) (Or.inl rfl) (Or.inl rfl))
    | none =>
      rw [computeUpper_fresh hl hx]
      have hc := cls_classify hC h
      generalize s.classify E = t at hc
      have ht : t.info.ty = .orderZero ∨ t.info.ty = .linConst ∨ t.info.ty = .linVar ∨ t.info.ty = .weighted ∨
          t.info.ty = .maxFn := by
        rw [hc.info]; exact hC.ty
      by_cases hs : t.cl = .success
      · rw [if_pos hs]
        rcases ht with ht | ht | ht | ht | ht <;> rw [ht] <;> simp only <;> (try split_ifs) <;>
          first | exact inv_computeExact hC (Or.inr hc) | exact Or.inr hc
      · rw [if_neg hs]; exact Or.inr hc

theorem inv_reset {s : RecState} (h : Inv E e P Q s) : Inv E e P Q s.resetICs := by
  rcases h with ⟨h1, h2, h3, h4, h5, -⟩ | h
  · exact Or.inl ⟨h1, h2, h3, h4, h5, rfl, rfl, rfl, rfl⟩
  · refine Or.inr ⟨h.cl, h.rhs, h.info, h.exact, h.lower, h.upper, ?_, ?_, ?_, Or.inl rfl⟩ <;>
    · intro v hv; cases hv

theorem inv_setICs {s : RecState} (hC : Closed E e P Q) (h : Inv E e P Q s) (m : ICMap) : Inv E e P Q (RecState.setICs E s m).1 := by
  unfold RecState.setICs
  have key : ∀ t : RecState, Inv E e P Q t → t.ics = [] → Inv E e P Q (setICsClassified (t.classify E) m).1 := by
    intro t h hi
    have hc := cls_classify hC h
    have hi' : (t.classify E).ics = [] := (classify_fields E t).2.2.2.2.trans hi
    generalize t.classify E = t at hc hi'
    unfold setICsClassified
    by_cases hs : t.cl ≠ .success
    · rw [if_pos hs]; exact Or.inr hc
    · rw [if_neg hs]
      cases hk : checkICs t.info m with
      | accepted =>
        refine Or.inr ⟨hc.cl, hc.rhs, hc.info, hc.exact, hc.lower, hc.upper, ?_, ?_, ?_, Or.inr hk⟩
        · intro v hv; exact absurd hi' (hc.evE v hv).1
        · intro v hv; exact absurd hi' (hc.evL v hv).1
        · intro v hv; exact absurd hi' (hc.evU v hv).1
      | _ => exact Or.inr hc
  by_cases hi : s.ics ≠ []
  · rw [if_pos hi]; exact key _ (inv_reset h) rfl
  · rw [if_neg hi]; exact key _ h (not_not.mp hi)

theorem inv_query {s : RecState} (hC : Closed E e P Q) (h : Inv E e P Q s) (w : Which) : Inv E e P Q (query E w s).1 := by
  cases w with
  | exact =>
    show Inv E e P Q (RecState.getExact E s).1
    cases hx : s.exact with
    | none => rw [getExact_none hx]; exact h
    | some x =>
      rw [getExact_some hx]
      rcases h with h | h
      · rw [h.2.2.1] at hx; cases hx
      · refine Or.inr ?_
        have hp := h.exact x hx
        by_cases hi : s.ics = []
        · rw [if_pos hi]
          exact h.mk' rfl rfl rfl rfl (Or.inr ⟨_, rfl, hC.rename x hp⟩) (Or.inl rfl) (Or.inl rfl) (Or.inl rfl) (Or.inl rfl) (Or.inl rfl)
        · rw [if_neg hi]
          by_cases hv : s.evExact.isSome
          · rw [if_pos hv]
            exact h.mk' rfl rfl rfl rfl (Or.inl rfl) (Or.inl rfl) (Or.inl rfl) (Or.inl rfl) (Or.inl rfl) (Or.inl rfl)
          · rw [if_neg hv]
            have hq := (h.onIC hC hp hi).2
            exact h.mk' rfl rfl rfl rfl (Or.inl rfl) (Or.inl rfl) (Or.inl rfl) (Or.inr ⟨_, rfl, hi, hq⟩) (Or.inr ⟨_, rfl, hi, hq⟩) (Or.inr ⟨_, rfl, hi, hq⟩)
  | lower =>
    show Inv E e P Q (RecState.getLower E s).1
    cases hx : s.lower with
    | none => rw [getLower_none hx]; exact h
    | some x =>
      rw [getLower_some hx]
      rcases h with h | h
      · rw [h.2.2.2.1] at hx; cases hx
      · refine Or.inr ?_
        have hp := h.lower x hx
        by_cases hi : s.ics = []
        · rw [if_pos hi]
          exact h.mk' rfl rfl rfl rfl (Or.inl rfl) (Or.inr ⟨_, rfl, hC.rename x hp⟩) (Or.inl rfl) (Or.inl rfl) (Or.inl rfl) (Or.inl rfl)
        · rw [if_neg hi]
          by_cases hv : s.evLower.isSome
          · rw [if_pos hv]
            exact h.mk' rfl rfl rfl rfl (Or.inl rfl) (Or.inl rfl) (Or.inl rfl) (Or.inl rfl) (Or.inl rfl) (Or.inl rfl)
          · rw [if_neg hv]
            have hq := (h.onIC hC hp hi).2
            exact h.mk' rfl rfl rfl rfl (Or.inl rfl) (Or.inl rfl) (Or.inl rfl) (Or.inl rfl) (Or.inr ⟨_, rfl, hi, hq⟩) (Or.inl rfl)
  | upper =>
    show Inv E e P Q (RecState.getUpper E s).1
    cases hx : s.upper with
    | none => rw [getUpper_none hx]; exact h
    | some x =>
      rw [getUpper_some hx]
      rcases h with h | h
      · rw [h.2.2.2.2.1] at hx; cases hx
      · refine Or.inr ?_
        have hp := h.upper x hx
        by_cases hi : s.ics = []
        · rw [if_pos hi]
          exact h.mk' rfl rfl rfl rfl (Or.inl rfl) (Or.inl rfl) (Or.inr ⟨_, rfl, hC.rename x hp⟩) (Or.inl rfl) (Or.inl rfl) (Or.inl rfl)
        · rw [if_neg hi]
          by_cases hv : s.evUpper.isSome
          · rw [if_pos hv]
            exact h.mk' rfl rfl rfl rfl (Or.inl rfl) (Or.inl rfl) (Or.inl rfl) (Or.inl rfl) (Or.inl rfl) (Or.inl rfl)
          · rw [if_neg hv]
            have hq := (h.onIC hC hp hi).2
            exact h.mk' rfl rfl rfl rfl (Or.inl rfl) (Or.inl rfl) (Or.inl rfl) (Or.inl rfl) (Or.inl rfl) (Or.inr ⟨_, rfl, hi, hq⟩)

theorem inv_reach {s : RecState} (hC : Closed E e P Q) (h : RecReach E e s) : Inv E e P Q s := by
  induction h with
  | new => exact Or.inl ⟨rfl, rfl, rfl, rfl, rfl, rfl, rfl, rfl, rfl⟩
  | step op _ ih =>
    cases op with
    | setICs m => exact inv_setICs hC ih m
    | resetICs => exact inv_reset ih
    | computeExact => exact inv_computeExact hC ih
    | computeLower => exact inv_computeLower hC ih
    | computeUpper => exact inv_computeUpper hC ih
    | getExact => exact inv_query hC ih .exact
    | getLower => exact inv_query hC ih .lower
    | getUpper => exact inv_query hC ih .upper

/-- The answers after any history: `P` without initial conditions, `Q` of the initial conditions in force with them. -/
theorem answers {s : RecState} (hC : Closed E e P Q) (h : RecReach E e s) {w : Which} {v : Expr} (hv : (query E w s).2 = some v) :
    (s.ics = [] → P v) ∧ (s.ics ≠ [] → checkICs (E.classify e).2.1 s.ics = .accepted ∧ Q s.ics v) ∧
      s.info = (E.classify e).2.1 := by
  have hI := inv_reach hC h
  have main : ∀ (c ev : RecState → Option Expr), (∀ x, c s = some x → Cls E e P Q s → P x) →
      (∀ v, ev s = some v → Cls E e P Q s → s.ics ≠ [] ∧ Q s.ics v) → (Cls E e P Q s ∨ c s = none) →
      (match c s with
        | none => none
        | some x => if s.ics = [] then some (E.rename x) else if (ev s).isSome then ev s
            else some (E.rename (E.onIC s.rhs s.info s.ics x))) = some v →
      (s.ics = [] → P v) ∧ (s.ics ≠ [] → checkICs (E.classify e).2.1 s.ics = .accepted ∧ Q s.ics v) ∧ s.info = (E.classify e).2.1 := by
    intro c ev h1 h2 h3 h4
    cases hx : c s with
    | none => rw [hx] at h4; cases h4
    | some x =>
      rw [hx] at h4 h3
      have hc := h3.resolve_right (by simp)
      have hp := h1 x hx hc
      simp only at h4
      by_cases hi : s.ics = []
      · rw [if_pos hi, Option.some.injEq] at h4
        subst h4
        exact ⟨fun _ => hC.rename x hp, fun h => absurd hi h, hc.info⟩
      · rw [if_neg hi] at h4
        refine ⟨fun h => absurd h hi, fun _ => ⟨hc.info ▸ hc.acc.resolve_left hi, ?_⟩, hc.info⟩
        by_cases hev : (ev s).isSome
        · rw [if_pos hev] at h4
          exact (h2 v h4 hc).2
        · rw [if_neg hev, Option.some.injEq] at h4
          subst h4
          exact (hc.onIC hC hp hi).2
  cases w with
  | exact =>
    refine main RecState.exact RecState.evExact (fun x hx h => h.exact x hx) (fun v hv h => h.evE v hv)
      (hI.elim (fun h => Or.inr h.2.2.1) Or.inl) ?_
    rw [← hv, query]
    cases hx : s.exact with
    | none => rw [getExact_none hx]
    | some x => rw [getExact_some hx]; simp only; split_ifs <;> rfl
  | lower =>
    refine main RecState.lower RecState.evLower (fun x hx h => h.lower x hx) (fun v hv h => h.evL v hv)
      (hI.elim (fun h => Or.inr h.2.2.2.1) Or.inl) ?_
    rw [← hv, query]
    cases hx : s.lower with
    | none => rw [getLower_none hx]
    | some x => rw [getLower_some hx]; simp only; split_ifs <;> rfl
  | upper =>
    refine main RecState.upper RecState.evUpper (fun x hx h => h.upper x hx) (fun v hv h => h.evU v hv)
      (hI.elim (fun h => Or.inr h.2.2.2.2.1) Or.inl) ?_
    rw [← hv, query]
    cases hx : s.upper with
    | none => rw [getUpper_none hx]
    | some x => rw [getUpper_some hx]; simp only; split_ifs <;> rfl

/-! ### Linear recurrences of finite order -/

section
variable {K : Type} [Field K] [CharZero K] {I : Interp K}

/-- The last `k` indices of the initial conditions are `j, …, j + k - 1`. -/
def LastKeys (m : ICMap) (k j : ℕ) : Prop := (∀ i < k, j + i ∈ m.keys) ∧ ∀ i ∈ m.keys, i < j + k

/-- The sequence `X` satisfies `x(n) = e` from `j + k` on and takes the given values from `j` on. -/
def Fits (I : Interp K) (n : String) (e : Expr) (ρ : String → K) (m : ICMap) (k j : ℕ) (X : K → K) : Prop :=
  SolvesAt I n e ρ X (j + k) ∧ ∀ p ∈ m, j ≤ p.1 → X (p.1 : K) = eval (withX I X) ρ p.2

/-- What is assumed of the parts of the library behind the object for the recurrence `x(n) = e`, classified as linear of finite order:
the equation is linear with the order and the first valid index recorded; the solver returns expressions in `P`, solutions of `e` whose
only `x` are the symbolic initial conditions; renaming keeps `P` and the values; the initial conditions are applied by
`compute_solution_or_bound_on_i_c`; `lsolve` and the simplifications are right. -/
structure SoundLinear (I : Interp K) (E : Engine) (O : OnIC.Ops) (n : String) (B : String → Prop) (ρ : String → K) (e : Expr)
    (a : ℕ → ℕ → K) (p : ℕ → K) (P : Expr → Prop) : Prop where
  classified : (E.classify e).1 ≠ .notYet
  ty : (E.classify e).2.1.ty = .linConst ∨ (E.classify e).2.1.ty = .linVar
  order : 1 ≤ (E.classify e).2.1.order
  notB : ¬ B n
  linear : LinearAt I n e ρ (E.classify e).2.1.first (E.classify e).2.1.order a p
  solve : ∀ b x, E.solve (E.classify e).2.2 (E.classify e).2.1 b = .ok x → P x
  rename : ∀ x, P x → P (E.rename x)
  shape : ∀ x, P x → Shape B (fun q => ∃ i < (E.classify e).2.1.order, q = (((E.classify e).2.1.first + i : ℕ) : ℚ)) x
  fresh : ∀ x, P x → Fresh I O n B x
  solution : ∀ x, P x → IsSolution I n e ρ x (E.classify e).2.1.first (E.classify e).2.1.order
  onIC : ∃ d weight inhom z sol1, ∀ m x, E.onIC (E.classify e).2.2 (E.classify e).2.1 m x =
    (OnIC.evaluate O n (E.classify e).2.1 d weight inhom z sol1 m x).getD (.num 0)
  renameIC : ∀ m x, P x → ∀ (N : ℕ) Y, eval (withX I Y) (update ρ n N) (E.rename (E.onIC (E.classify e).2.2 (E.classify e).2.1 m x)) =
    eval (withX I Y) (update ρ n N) (E.onIC (E.classify e).2.2 (E.classify e).2.1 m x)
  lsolve : LsolveOk I O n B
  simp : ∀ x m b, P x → OnIC.linear { O with simp := id } n (E.classify e).2.1.first (E.classify e).2.1.order m x = some b →
    ∀ (N : ℕ) Y, eval (withX I Y) (update ρ n N) (O.simp b) = eval (withX I Y) (update ρ n N) b

/-- What is assumed of the initial conditions: a map (sorted indices) of 32-bit indices, the largest of which is at least
`first + order - 1`, with values in which neither `x` nor `n` occurs; `lsolve` answers the linear system built from them. -/
structure GoodICs (I : Interp K) (E : Engine) (O : OnIC.Ops) (n : String) (B : String → Prop) (e : Expr) (P : Expr → Prop) (m : ICMap) : Prop where
  sorted : m.Sorted
  small : ∀ i ∈ m.keys, i < 4294967296
  large : ∃ i ∈ m.keys, (E.classify e).2.1.first + (E.classify e).2.1.order ≤ i + 1
  value : ∀ q ∈ m, Value I n B (fun t => ∃ i, t = O.fresh i) q.2
  answered : ∀ x, P x → O.lsolve (OnIC.equations n (E.classify e).2.1.order m id (OnIC.abstractIC O (E.classify e).2.1.first (E.classify e).2.1.order x))
    ((List.range (E.classify e).2.1.order).map O.fresh) ≠ none

theorem lastKeys_append {k j : ℕ} {pre suf : ICMap} (hkeys : suf.map Prod.fst = (List.range k).map (j + ·)) (hpre : ∀ q ∈ pre, q.1 < j) :
    LastKeys (pre ++ suf) k j := by
  constructor
  · intro i hi
    have : j + i ∈ suf.map Prod.fst := by
      rw [hkeys]; exact List.mem_map.mpr ⟨i, by simpa using hi, rfl⟩
    simp only [ICMap.keys, List.map_append, List.mem_append]
    exact Or.inr this
  · intro i hi
    simp only [ICMap.keys, List.map_append, List.mem_append] at hi
    rcases hi with hi | hi
    · obtain ⟨q, hq, rfl⟩ := List.mem_map.mp hi
      have := hpre q hq
      omega
    · rw [hkeys] at hi
      obtain ⟨t, ht, rfl⟩ := List.mem_map.mp hi
      have : t < k := by simpa using ht
      omega

theorem LastKeys.unique {m : ICMap} {k i j : ℕ} (hk : 0 < k) (hi : LastKeys m k i) (hj : LastKeys m k j) : i = j := by
  have h1 := hi.2 _ (hj.1 (k - 1) (by omega))
  have h2 := hj.2 _ (hi.1 (k - 1) (by omega))
  omega

/-- The value on the initial conditions, for one symbolic solution. -/
theorem onIC_val {O : OnIC.Ops} {n : String} {B : String → Prop} {ρ : String → K} {a : ℕ → ℕ → K} {p : ℕ → K}
    (hS : SoundLinear I E O n B ρ e a p P) {m : ICMap} (hacc : checkICs (E.classify e).2.1 m = .accepted)
    (hm : GoodICs I E O n B e P m) {x : Expr} (hx : P x) :
    ∃ j, (E.classify e).2.1.first ≤ j ∧ LastKeys m (E.classify e).2.1.order j ∧
      (∃ X, Fits I n e ρ m (E.classify e).2.1.order j X) ∧
      ∀ X, Fits I n e ρ m (E.classify e).2.1.order j X → ∀ N : ℕ, j ≤ N → ∀ Y,
        eval (withX I Y) (update ρ n N) (E.onIC (E.classify e).2.2 (E.classify e).2.1 m x) = X N := by
  obtain ⟨hcl, ht, ho, hnB, hl, -, -, hshape, hfresh, hsolution, ⟨d, weight, inhom, z, sol1, hon⟩, -, hls, hsimp⟩ := hS
  obtain ⟨hsorted, hsmall, hlarge, hvalue, hans⟩ := hm
  generalize (E.classify e).2.1 = info at *
  obtain ⟨pre, suf, j, rfl, hkeys, hpre, hj⟩ := OnIC.C115_accepted_partial ht ho hsorted hsmall hacc hlarge
  have hlen : suf.length = info.order := by
    have := congrArg List.length hkeys
    simpa using this
  refine ⟨j, hj, lastKeys_append hkeys hpre, ?_, ?_⟩
  · obtain ⟨X, hX, hXv⟩ := OnIC.forward_exists (I := I) (n := n) (rhs := e) (ρ := ρ) (f := j) (k := info.order)
      (fun N hN => hl.order N (by omega)) fun i => if h : i < info.order then eval (withX I fun _ => 0) ρ (suf[i]'(hlen ▸ h)).2 else 0
    refine ⟨X, hX, fun q hq hqj => ?_⟩
    rcases List.mem_append.mp hq with hq' | hq'
    · have := hpre q hq'
      omega
    · obtain ⟨i, hi, rfl⟩ := List.mem_iff_getElem.mp hq'
      have hik : i < info.order := hlen ▸ hi
      have hkey : suf[i].1 = j + i := by
        have := congrArg (fun l => l[i]?) hkeys
        simpa [hi, hik] using this
      rw [hkey, hXv i hik, dif_pos hik]
      exact eval_noX I _ X _ (OnIC.shape_hasX (hvalue _ hq).shape) ρ
  · intro X hX N hN Y
    rw [hon]
    have hsh := hshape x hx
    have hlin : OnIC.evaluate O n info d weight inhom z sol1 (pre ++ suf) x =
        if Verify.hasIC n x = false then some x else OnIC.linear O n info.first info.order (pre ++ suf) x := by
      unfold OnIC.evaluate
      split_ifs with h
      · rfl
      · rcases ht with ht | ht <;> rw [ht]
    rw [hlin]
    by_cases hic : Verify.hasIC n x = false
    · rw [if_pos hic, Option.getD_some]
      have hxx : hasX x = false := by
        have h1 := OnIC.shape_onlyIC n (S := fun q => ∃ i < info.order, q = ((info.first + i : ℕ) : ℚ)) (by
          rintro q ⟨i, -, rfl⟩
          exact ⟨Rat.den_natCast _, by positivity⟩) hsh
        rw [Verify.hasIC, h1, Bool.and_true] at hic
        exact hic
      obtain ⟨t, rfl⟩ := Nat.exists_eq_add_of_le hj
      obtain ⟨Z, hZ, hZX⟩ := OnIC.backward_exists ho hl t hX.1
      rw [eval_noX I Y Z _ hxx, hsolution x hx Z hZ N (by omega), hZX N hN]
    · rw [if_neg hic]
      have hlin2 : OnIC.linear O n info.first info.order (pre ++ suf) x =
          (OnIC.linear { O with simp := id } n info.first info.order (pre ++ suf) x).map O.simp := by
        unfold OnIC.linear
        cases largestKey (pre ++ suf) with
        | none => rfl
        | some L => simp only [Option.map_id, id_eq]; rfl
      have hsome : OnIC.linear { O with simp := id } n info.first info.order (pre ++ suf) x ≠ none := by
        unfold OnIC.linear
        cases hk : largestKey (pre ++ suf) with
        | none =>
          have : suf = [] ∧ pre = [] := by simpa [largestKey] using hk
          have := this.1
          rw [this] at hlen
          simp at hlen
          omega
        | some L =>
          simp only
          split_ifs
          · unfold OnIC.bySystem
            rw [if_neg (by simp [hlen])]
            simp
          · simp
      obtain ⟨b, hb⟩ := Option.ne_none_iff_exists'.mp hsome
      rw [hlin2, hb, Option.map_some, Option.getD_some, hsimp x _ b hx hb]
      refine OnIC.C114_linear (O := { O with simp := id }) hnB ⟨(hfresh x hx).inj, (hfresh x hx).ne_n, (hfresh x hx).notB, (hfresh x hx).sol⟩
        ho hj hsh hls hkeys hpre hvalue hl.order (hsolution x hx) (fun _ => hans x hx) hb (fun _ h _ _ => by rw [← h]; rfl) hX.1
        (fun q hq => hX.2 q (by simp [hq]) ?_) N hN Y
      have : q.1 ∈ suf.map Prod.fst := List.mem_map.mpr ⟨q, hq, rfl⟩
      rw [hkeys] at this
      obtain ⟨i, -, hi⟩ := List.mem_map.mp this
      omega

/-- What the closed form of the answer must be for the initial conditions `m`. -/
def RightOn (I : Interp K) (E : Engine) (n : String) (ρ : String → K) (e : Expr) (m : ICMap) (v : Expr) : Prop :=
  ∃ j, (E.classify e).2.1.first ≤ j ∧ LastKeys m (E.classify e).2.1.order j ∧
    (∃ X, Fits I n e ρ m (E.classify e).2.1.order j X) ∧
    ∀ X, Fits I n e ρ m (E.classify e).2.1.order j X → ∀ N : ℕ, j ≤ N → ∀ Y, eval (withX I Y) (update ρ n N) v = X N

theorem closed_linear {O : OnIC.Ops} {n : String} {B : String → Prop} {ρ : String → K} {a : ℕ → ℕ → K} {p : ℕ → K}
    (hS : SoundLinear I E O n B ρ e a p P) : Closed E e P (fun m v => GoodICs I E O n B e P m → RightOn I E n ρ e m v) where
  classified := hS.classified
  ty := by rcases hS.ty with h | h <;> simp [h]
  solve := hS.solve
  rename := hS.rename
  onIC := fun x m hx ha hm => onIC_val hS ha hm hx
  onICr := by
    intro x m hx ha hm
    obtain ⟨j, h1, h2, h3, h4⟩ := onIC_val hS ha hm hx
    refine ⟨j, h1, h2, h3, fun X hX N hN Y => ?_⟩
    rw [hS.renameIC m x hx N Y, h4 X hX N hN Y]

/-- **C136.**  Whatever calls were made before, an answer of `exact_solution()`, `lower_bound()` or `upper_bound()` for a linear
recurrence of finite order is its solution: without initial conditions an expression that equals, from the first valid index on, every
sequence satisfying the equation; with initial conditions `m` in force, whose last `k` indices are `j, …, j+k-1`, an expression without
symbolic initial conditions that equals from `j` on the sequence (there is one) with the given values that satisfies the equation. -/
theorem C136_answer_is_solution {O : OnIC.Ops} {n : String} {B : String → Prop} {ρ : String → K} {a : ℕ → ℕ → K} {p : ℕ → K}
    (hS : SoundLinear I E O n B ρ e a p P) {s : RecState} (h : RecReach E e s) {w : Which} {v : Expr} (hv : (query E w s).2 = some v) :
    (s.ics = [] → IsSolution I n e ρ v (E.classify e).2.1.first (E.classify e).2.1.order) ∧
    (s.ics ≠ [] → GoodICs I E O n B e P s.ics →
      ∃ j, (E.classify e).2.1.first ≤ j ∧ LastKeys s.ics (E.classify e).2.1.order j ∧
        (∃ X, Fits I n e ρ s.ics (E.classify e).2.1.order j X) ∧
        ∀ X, Fits I n e ρ s.ics (E.classify e).2.1.order j X → ∀ N : ℕ, j ≤ N → ∀ Y, eval (withX I Y) (update ρ n N) v = X N) := by
  obtain ⟨h1, h2, -⟩ := answers (closed_linear hS) h hv
  exact ⟨fun hi => hS.solution v (h1 hi), fun hi hm => (h2 hi).2 hm⟩

/-- An object (of whatever engine) with the recorded data of `e`, initial conditions `m` and the answer `v`: the values returned. -/
theorem evaluation_value {O : OnIC.Ops} {B : String → Prop} {ρ : String → K} {a : ℕ → ℕ → K} {p : ℕ → K}
    (hS : SoundLinear I E O "n" B ρ e a p P) {F : Engine} {s : RecState} (hi : s.ics ≠ []) (hm : GoodICs I E O "n" B e P s.ics)
    {w : Which} {v : Expr} (hv : (query F w s).2 = some v) (hinfo : s.info = (E.classify e).2.1) (hr : RightOn I E "n" ρ e s.ics v)
    (hb : idxNe "n" v = true) {j : ℕ} (hj : LastKeys s.ics (E.classify e).2.1.order j)
    {X : K → K} (hX : Fits I "n" e ρ s.ics (E.classify e).2.1.order j X) {N : ℕ} (hN : j ≤ N) :
    ∃ u, (evaluate (query F w) s N).2 = .value u ∧ ∀ Y, eval (withX I Y) ρ u = X N := by
  obtain ⟨j', hf, hj', -, hval⟩ := hr
  obtain rfl : j = j' := hj.unique hS.order hj'
  have hty : s.info.ty = .linConst ∨ s.info.ty = .linVar := by rw [hinfo]; exact hS.ty
  have hck : checkNumber s (N : ℤ) = none := by
    have hno : ¬ ((N : ℤ) < ((if s.info.first + 1 ≥ s.info.order then s.info.first + 1 - s.info.order else 0 : ℕ) : ℤ)) := by
      rw [hinfo]
      have := hS.order
      split_ifs <;> omega
    unfold checkNumber
    rw [if_neg (by omega)]
    rcases hty with ht | ht <;> rw [ht] <;> simp only <;> rw [if_neg (fun h => hno h.1)]
  have hmax : maxIC s = j + (E.classify e).2.1.order - 1 := by
    have ho := hS.order
    have hmem := hj.1 ((E.classify e).2.1.order - 1) (by omega)
    obtain ⟨q, hq, hqk⟩ := List.mem_map.mp hmem
    have h1 := le_maxIC hm.sorted (k := q.1) (v := q.2) hq
    obtain ⟨L, hL, hLe⟩ := largest_mem hm.sorted hi
    have h3 : maxIC s ∈ s.ics.keys := by
      have : maxIC s = L := by
        unfold maxIC
        rw [hLe.2.1]
        rfl
      rw [this]; exact hL
    have h4 := hj.2 _ h3
    omega
  rw [evaluate_eq (E := F), hv]
  simp only [hck]
  rw [if_neg (by rcases hty with ht | ht <;> simp [ht])]
  by_cases hle : (N : ℤ) ≤ (maxIC s : ℤ)
  · rw [if_pos hle]
    refine ⟨_, rfl, fun Y => ?_⟩
    have ho := hS.order
    have hmem := hj.1 (N - j) (by omega)
    rw [show j + (N - j) = N by omega] at hmem
    obtain ⟨q, hq, hqk⟩ := List.mem_map.mp hmem
    have hget : RecState.getIC s (N : ℤ).toNat = q.2 := by
      unfold RecState.getIC
      rw [Int.toNat_natCast, ← hqk, find_of_sorted hm.sorted (k := q.1) (v := q.2) hq]
    rw [hget, ← hqk, hX.2 q hq (by omega)]
    exact eval_noX I Y X _ (OnIC.shape_hasX (hm.value q hq).shape) ρ
  · rw [if_neg hle]
    refine ⟨_, rfl, fun Y => ?_⟩
    have := EvalRules.eval_substNum (I := withX I Y) "n" hb (N : ℚ) ρ
    rw [show ((((N : ℤ) : ℚ)) : ℚ) = (N : ℚ) by push_cast; rfl, this, ← hval X hX N hN Y]
    norm_num

/-- **C137.**  Whatever calls were made before, with initial conditions in force a value returned by `evaluate_exact_solution(x)` (or
by the evaluation of a bound) for `x ≥ j`, `j` being the smallest of the last `k` indices given, is the value at `x` of the sequence
that takes the given values and satisfies the equation. -/
theorem C137_evaluation_is_value {O : OnIC.Ops} {B : String → Prop} {ρ : String → K} {a : ℕ → ℕ → K} {p : ℕ → K}
    (hS : SoundLinear I E O "n" B ρ e a p P) {s : RecState} (h : RecReach E e s) (hi : s.ics ≠ []) (hm : GoodICs I E O "n" B e P s.ics)
    {w : Which} {v : Expr} (hv : (query E w s).2 = some v) (hb : idxNe "n" v = true) {j : ℕ} (hj : LastKeys s.ics (E.classify e).2.1.order j)
    {X : K → K} (hX : Fits I "n" e ρ s.ics (E.classify e).2.1.order j X) {N : ℕ} (hN : j ≤ N) :
    ∃ u, (evaluate (query E w) s N).2 = .value u ∧ ∀ Y, eval (withX I Y) ρ u = X N := by
  obtain ⟨-, h2, hinfo⟩ := answers (closed_linear hS) h hv
  exact evaluation_value hS hi hm hv hinfo ((h2 hi).2 hm) hb hj hX hN

end

/-! ### A concrete case: `x(n) = 2 x(n-1)` -/

/-- The engine that knows `x(n) = 2 x(n-1)`. -/
def exEngine : Engine where
  classify := fun e => (.success, ⟨.linConst, 1, 0, 0⟩, e)
  solve := fun _ _ _ => .ok OnIC.exSol
  bound := fun _ _ _ => .error .tooComplex
  onIC := fun _ info m x => (OnIC.evaluate OnIC.exOps "n" info ⟨0, .num 0, .num 0⟩ (.num 0) (.num 0) 0 (.num 0) m x).getD (.num 0)
  rename := id

theorem ex_sound (ρ : String → ℚ) : SoundLinear ratInterp exEngine OnIC.exOps "n" (fun _ => False) ρ OnIC.exRhs (fun _ _ => 2) (fun _ => 0)
    (fun x => x = OnIC.exSol) where
  classified := by simp [exEngine]
  ty := Or.inl rfl
  order := le_rfl
  notB := by simp
  linear := OnIC.ex_linear ρ
  solve := by
    intro b x h
    simp only [exEngine, Except.ok.injEq] at h
    exact h.symm
  rename := fun x hx => hx
  shape := by
    rintro x rfl
    simp [exEngine, OnIC.exSol, Verify.xAt, Shape]
  fresh := by rintro x rfl; exact OnIC.ex_fresh
  solution := by rintro x rfl; exact OnIC.ex_solution ρ
  onIC := ⟨⟨0, .num 0, .num 0⟩, .num 0, .num 0, 0, .num 0, fun _ _ => rfl⟩
  renameIC := fun _ _ _ _ _ => rfl
  lsolve := OnIC.ex_lsolve
  simp := fun _ _ _ _ _ _ _ => rfl

/-- The history: compute, give `x(0) = 5`, ask, then give `x(3) = 16` instead. -/
def exState : RecState :=
  ((((RecState.new OnIC.exRhs).step exEngine .computeExact).step exEngine (.setICs [(0, .num 5)])).step exEngine .getExact).step exEngine
    (.setICs [(3, .num 16)])

theorem ex_hasIC : Verify.hasIC "n" OnIC.exSol = true := by
  simp [Verify.hasIC, OnIC.exSol, Verify.xAt, hasX, Verify.hasOnlyIC, Verify.isICArg]

/-- **C136**, **C137**, a concrete case: all hypotheses hold; after the history above the answer is `2 * 2^n`. -/
theorem C136_nonvacuous (ρ : String → ℚ) :
    SoundLinear ratInterp exEngine OnIC.exOps "n" (fun _ => False) ρ OnIC.exRhs (fun _ _ => 2) (fun _ => 0) (fun x => x = OnIC.exSol) ∧
    RecReach exEngine OnIC.exRhs exState ∧ exState.ics = [(3, .num 16)] ∧
    GoodICs ratInterp exEngine OnIC.exOps "n" (fun _ => False) OnIC.exRhs (fun x => x = OnIC.exSol) exState.ics ∧
    LastKeys exState.ics 1 3 ∧
    (query exEngine .exact exState).2 = some (.mul [.num 2, .pow (.num 2) (.sym "n")]) ∧
    idxNe "n" (.mul [.num 2, .pow (.num 2) (.sym "n")]) = true := by
  have hics : exState.ics = [(3, .num 16)] := by
    rfl
  refine ⟨ex_sound ρ, .step _ (.step _ (.step _ (.step _ .new))), hics, ?_, ?_, ?_, by simp [idxNe]⟩
  · rw [hics]
    refine ⟨by simp [ICMap.Sorted], by simp [ICMap.keys], by simp [ICMap.keys, exEngine], ?_, ?_⟩
    · intro q hq
      simp only [List.mem_singleton] at hq
      subst hq
      exact ⟨by simp [Shape], by intro Y ρ t v _; simp [eval]⟩
    · rintro x rfl
      have := (OnIC.C114_nonvacuous ρ).2.2.2.2.2.2.1
      simpa [exEngine] using this
  · rw [hics]
    constructor <;> simp [ICMap.keys]
  · have h1 : (query exEngine .exact exState).2 = some (exEngine.onIC OnIC.exRhs ⟨.linConst, 1, 0, 0⟩ [(3, .num 16)] OnIC.exSol) := rfl
    rw [h1, Option.some.injEq]
    have h2 := OnIC.ex_result
    rw [List.nil_append] at h2
    simp only [exEngine, OnIC.evaluate, ex_hasIC, Bool.true_eq_false, if_false, h2, Option.getD_some]

/-- **C137**, a concrete case: after the history above `evaluate_exact_solution(5)` gives the value at `5` of a sequence that takes the
value given at `3` and satisfies the equation. -/
theorem C137_nonvacuous (ρ : String → ℚ) : ∃ X : ℚ → ℚ, Fits ratInterp "n" OnIC.exRhs ρ exState.ics 1 3 X ∧
    ∃ u, (evaluate (query exEngine .exact) exState (5 : ℕ)).2 = .value u ∧ ∀ Y, eval (withX ratInterp Y) ρ u = X (5 : ℕ) := by
  obtain ⟨h1, h2, h3, h4, h5, h6, h7⟩ := C136_nonvacuous ρ
  have hne : exState.ics ≠ [] := by rw [h3]; simp
  obtain ⟨j, -, hj, ⟨X, hX⟩, -⟩ := (C136_answer_is_solution h1 h2 h6).2 hne h4
  obtain rfl : j = 3 := hj.unique (by simp [exEngine]) h5
  exact ⟨X, hX, C137_evaluation_is_value h1 h2 hne h4 h6 h7 hj hX (by omega)⟩

/-! ### Weighted averages -/

section
variable {K : Type} [Field K] [CharZero K] {I : Interp K}

open WeightedAvg (SolvesWA)

/-- What is assumed of the parts of the library behind the object for a weighted-average recurrence
`x(n) = w(n) sum(k, first, n-1 or n, x(k)) + g(n)`: the solver returns expressions in `P`, solutions whose only `x` is the symbolic
initial condition `x(first)`; renaming keeps `P` and the values; the initial conditions are applied by
`compute_solution_or_bound_on_i_c`. -/
structure SoundWeighted (I : Interp K) (E : Engine) (O : OnIC.Ops) (n : String) (B : String → Prop) (ρ : String → K) (e w g : Expr) (up : Bool)
    (P : Expr → Prop) : Prop where
  classified : (E.classify e).1 ≠ .notYet
  ty : (E.classify e).2.1.ty = .weighted
  solve : ∀ b x, E.solve (E.classify e).2.2 (E.classify e).2.1 b = .ok x → P x
  rename : ∀ x, P x → P (E.rename x)
  shape : ∀ x, P x → Shape B (fun q => q = ((E.classify e).2.1.first : ℚ)) x
  solution : ∀ x, P x → ∀ X : K → K, SolvesWA I n ρ w g (E.classify e).2.1.first up X →
    ∀ N : ℕ, (E.classify e).2.1.first < N → eval (withX I X) (update ρ n N) x = X N
  onIC : ∃ d w' g' z sol1, ∀ m x, E.onIC (E.classify e).2.2 (E.classify e).2.1 m x =
    (OnIC.evaluate O n (E.classify e).2.1 d w' g' z sol1 m x).getD (.num 0)
  renameIC : ∀ m x, P x → ∀ (N : ℕ) Y, eval (withX I Y) (update ρ n N) (E.rename (E.onIC (E.classify e).2.2 (E.classify e).2.1 m x)) =
    eval (withX I Y) (update ρ n N) (E.onIC (E.classify e).2.2 (E.classify e).2.1 m x)

/-- The initial condition is at the lower limit of the sum: it is the last index given, with a value in which neither `x` nor `n`
occurs. -/
structure FirstIC (I : Interp K) (n : String) (B : String → Prop) (first : ℕ) (m : ICMap) (v : Expr) : Prop where
  sorted : m.Sorted
  mem : (first, v) ∈ m
  last : ∀ i ∈ m.keys, i ≤ first
  value : Value I n B (fun _ => False) v

theorem FirstIC.max {n : String} {B : String → Prop} {first : ℕ} {m : ICMap} {v : Expr} (h : FirstIC I n B first m v) :
    largestKey m = some first ∧ m.find? (fun p => p.1 = first) = some (first, v) := by
  refine ⟨?_, find_of_sorted h.sorted h.mem⟩
  have hne : m ≠ [] := by rintro rfl; have := h.mem; simp at this
  obtain ⟨L, hL, h1, h2, -⟩ := largest_mem h.sorted hne
  have h3 := h1 first (List.mem_map.mpr ⟨_, h.mem, rfl⟩)
  have h4 := h.last L hL
  rw [h2, le_antisymm h4 h3]

theorem lookup_of_find {m : ICMap} {k : ℕ} {v : Expr} (h : m.find? (fun p => p.1 = k) = some (k, v)) : m.lookup k = some v := by
  induction m with
  | nil => simp at h
  | cons p m ih =>
    obtain ⟨i, u⟩ := p
    rw [List.find?_cons] at h
    rw [List.lookup_cons]
    by_cases hk : i = k
    · subst hk
      simp at h
      simp [h]
    · simp only [hk, decide_false] at h
      have hk' : (k == i) = false := by simpa using fun h => hk h.symm
      rw [hk']
      exact ih h

theorem weighted_val {O : OnIC.Ops} {n : String} {B : String → Prop} {ρ : String → K} {w g : Expr} {up : Bool}
    (hS : SoundWeighted I E O n B ρ e w g up P) {m : ICMap} {v : Expr} (hm : FirstIC I n B (E.classify e).2.1.first m v) {x : Expr} (hx : P x)
    {X : K → K} (hX : SolvesWA I n ρ w g (E.classify e).2.1.first up X) (hXv : X ((E.classify e).2.1.first : K) = eval (withX I X) ρ v) :
    ∀ N : ℕ, (E.classify e).2.1.first < N → ∀ Y,
      eval (withX I Y) (update ρ n N) (E.onIC (E.classify e).2.2 (E.classify e).2.1 m x) = X N := by
  obtain ⟨-, ht, -, -, hshape, hsolution, ⟨d, w', g', z, sol1, hon⟩, -⟩ := hS
  generalize (E.classify e).2.1 = info at *
  obtain ⟨hmax, hfind⟩ := hm.max
  have hM : Verify.maxIC m = info.first := by
    show (largestKey m).getD 0 = info.first
    rw [hmax]; rfl
  have hG : Verify.getIC m info.first = v := by rw [Verify.getIC, lookup_of_find hfind]; rfl
  intro N hN Y
  rw [hon]
  have hlin : OnIC.evaluate O n info d w' g' z sol1 m x =
      if Verify.hasIC n x = false then some x else OnIC.weighted n info.first w' g' z sol1 m x := by
    unfold OnIC.evaluate
    rw [ht]
  rw [hlin]
  by_cases hic : Verify.hasIC n x = false
  · rw [if_pos hic, Option.getD_some]
    have hxx : hasX x = false := by
      have h1 := OnIC.shape_onlyIC n (S := fun q => q = (info.first : ℚ)) (by
        rintro q rfl
        exact ⟨Rat.den_natCast _, by positivity⟩) (hshape x hx)
      rw [Verify.hasIC, h1, Bool.and_true] at hic
      exact hic
    rw [eval_noX I Y X _ hxx, hsolution x hx X hX N hN]
  · rw [if_neg hic]
    have hsome : ∃ b, OnIC.weighted n info.first w' g' z sol1 m x = some b := by
      unfold OnIC.weighted
      rw [if_neg (by omega)]
      exact ⟨_, rfl⟩
    obtain ⟨b, hb⟩ := hsome
    rw [hb, Option.getD_some]
    have hw : OnIC.weighted n info.first w g z sol1 m x = some b := by
      unfold OnIC.weighted at hb ⊢
      rw [if_neg (by omega)] at hb ⊢
      exact hb
    exact OnIC.C117_first hM (hshape x hx) (hsolution x hx) (hG ▸ hm.value) hw hX (hG ▸ hXv) N hN Y

theorem closed_weighted {O : OnIC.Ops} {n : String} {B : String → Prop} {ρ : String → K} {w g : Expr} {up : Bool}
    (hS : SoundWeighted I E O n B ρ e w g up P) : Closed E e P (fun m u => ∀ v, FirstIC I n B (E.classify e).2.1.first m v →
      ∀ X, SolvesWA I n ρ w g (E.classify e).2.1.first up X → X ((E.classify e).2.1.first : K) = eval (withX I X) ρ v →
      ∀ N : ℕ, (E.classify e).2.1.first < N → ∀ Y, eval (withX I Y) (update ρ n N) u = X N) where
  classified := hS.classified
  ty := by simp [hS.ty]
  solve := hS.solve
  rename := hS.rename
  onIC := fun x m hx _ v hm X hX hXv => weighted_val hS hm hx hX hXv
  onICr := by
    intro x m hx _ v hm X hX hXv N hN Y
    rw [hS.renameIC m x hx N Y, weighted_val hS hm hx hX hXv N hN Y]

/-- **C138.**  Whatever calls were made before, an answer of `exact_solution()`, `lower_bound()` or `upper_bound()` for a
weighted-average recurrence is its solution: without initial conditions an expression equal, above the lower limit of the sum, to every
sequence satisfying the equation; with the initial condition in force given at the lower limit, an expression without symbolic initial
conditions equal to the sequence with that value that satisfies the equation. -/
theorem C138_answer_is_solution {O : OnIC.Ops} {n : String} {B : String → Prop} {ρ : String → K} {w g : Expr} {up : Bool}
    (hS : SoundWeighted I E O n B ρ e w g up P) {s : RecState} (h : RecReach E e s) {k : Which} {u : Expr} (hu : (query E k s).2 = some u)
    {X : K → K} (hX : SolvesWA I n ρ w g (E.classify e).2.1.first up X) {N : ℕ} (hN : (E.classify e).2.1.first < N) :
    (s.ics = [] → eval (withX I X) (update ρ n N) u = X N) ∧
    (s.ics ≠ [] → ∀ v, FirstIC I n B (E.classify e).2.1.first s.ics v → X ((E.classify e).2.1.first : K) = eval (withX I X) ρ v →
      ∀ Y, eval (withX I Y) (update ρ n N) u = X N) := by
  obtain ⟨h1, h2, -⟩ := answers (closed_weighted hS) h hu
  exact ⟨fun hi => hS.solution u (h1 hi) X hX N hN, fun hi v hm hXv => (h2 hi).2 v hm X hX hXv N hN⟩

/-- **C138**, the evaluation: with the initial condition in force given at the lower limit, `evaluate_exact_solution(N)` returns a value
for every `N` from the lower limit on, and it is the value of the sequence. -/
theorem C138_evaluation_is_value {O : OnIC.Ops} {B : String → Prop} {ρ : String → K} {w g : Expr} {up : Bool}
    (hS : SoundWeighted I E O "n" B ρ e w g up P) {s : RecState} (h : RecReach E e s) {k : Which} {u : Expr} (hu : (query E k s).2 = some u)
    (hb : idxNe "n" u = true) {v : Expr} (hm : FirstIC I "n" B (E.classify e).2.1.first s.ics v)
    {X : K → K} (hX : SolvesWA I "n" ρ w g (E.classify e).2.1.first up X) (hXv : X ((E.classify e).2.1.first : K) = eval (withX I X) ρ v)
    {N : ℕ} (hN : (E.classify e).2.1.first ≤ N) :
    ∃ t, (evaluate (query E k) s N).2 = .value t ∧ ∀ Y, eval (withX I Y) ρ t = X N := by
  have hi : s.ics ≠ [] := by intro h; have := hm.mem; rw [h] at this; simp at this
  obtain ⟨-, h2, hinfo⟩ := answers (closed_weighted hS) h hu
  have hval := (h2 hi).2 v hm X hX hXv
  obtain ⟨hmax, hfind⟩ := hm.max
  have hM : maxIC s = (E.classify e).2.1.first := by simp [maxIC, hmax]
  have hty : s.info.ty = .weighted := by rw [hinfo]; exact hS.ty
  have hck : checkNumber s (N : ℤ) = none := by
    unfold checkNumber
    rw [if_neg (by omega), hty]
    simp only
    rw [if_neg, ]
    rintro ⟨h1, h2⟩
    rw [hinfo] at h1
    have : N = (E.classify e).2.1.first := by omega
    rw [Int.toNat_natCast, this, hfind] at h2
    simp at h2
  rw [evaluate_eq, hu]
  simp only [hck]
  rw [if_neg (by simp [hty]), hM]
  by_cases hle : N = (E.classify e).2.1.first
  · rw [if_pos (by omega)]
    refine ⟨_, rfl, fun Y => ?_⟩
    have hget : RecState.getIC s (N : ℤ).toNat = v := by
      unfold RecState.getIC
      rw [Int.toNat_natCast, hle, hfind]
    rw [hget, hle, hXv]
    exact eval_noX I Y X _ (OnIC.shape_hasX hm.value.shape) ρ
  · rw [if_neg (by omega)]
    refine ⟨_, rfl, fun Y => ?_⟩
    have := EvalRules.eval_substNum (I := withX I Y) "n" hb (N : ℚ) ρ
    rw [show ((((N : ℤ) : ℚ)) : ℚ) = (N : ℚ) by push_cast; rfl, this, ← hval N (by omega) Y]
    norm_num

end

/-- `x(0) 2^(n-1)`, the solution of `x(n) = sum(k, 0, n-1, x(k))`. -/
def waSol : Expr := .mul [Verify.xAt 0, .pow (.num 2) (.add [.sym "n", .num (-1)])]

/-- The engine that knows `x(n) = sum(k, 0, n-1, x(k))`. -/
def waEngine : Engine where
  classify := fun e => (.success, ⟨.weighted, 1, 0, 0⟩, e)
  solve := fun _ _ _ => .ok waSol
  bound := fun _ _ _ => .error .tooComplex
  onIC := fun _ info m x => (OnIC.evaluate OnIC.exOps "n" info ⟨0, .num 0, .num 0⟩ (.num 1) (.num 0) 0 (.num 0) m x).getD (.num 0)
  rename := id

theorem wa_solution (ρ : String → ℚ) (X : ℚ → ℚ) (hX : WeightedAvg.SolvesWA ratInterp "n" ρ (.num 1) (.num 0) 0 false X) :
    ∀ N : ℕ, 0 < N → eval (withX ratInterp X) (update ρ "n" N) waSol = X N := by
  have hs : ∀ j : ℕ, X ((j + 1 : ℕ) : ℚ) = X 0 * 2 ^ j ∧ ∑ k ∈ Finset.Icc 0 j, X (k : ℚ) = X 0 * 2 ^ j := by
    intro j
    induction j with
    | zero =>
      have h := hX 1 (by norm_num)
      unfold WeightedAvg.WAAt at h
      simp [eval] at h
      simp [h]
    | succ j ih =>
      have h1 : ∑ k ∈ Finset.Icc 0 (j + 1), X (k : ℚ) = X 0 * 2 ^ (j + 1) := by
        rw [Finset.sum_Icc_succ_top (by omega), ih.2, ih.1]; ring
      refine ⟨?_, h1⟩
      have h := hX (j + 1 + 1) (by omega)
      unfold WeightedAvg.WAAt at h
      simp only [Bool.false_eq_true, if_false, eval, Rat.cast_one, Rat.cast_zero, one_mul, add_zero, Nat.add_sub_cancel] at h
      rw [h, h1]
  intro N hN
  obtain ⟨M, rfl⟩ : ∃ M, N = M + 1 := ⟨N - 1, by omega⟩
  rw [(hs M).1]
  simp [waSol, Verify.xAt, eval, withX, ratInterp]

theorem wa_sound (ρ : String → ℚ) (e : Expr) : SoundWeighted ratInterp waEngine OnIC.exOps "n" (fun _ => False) ρ e (.num 1) (.num 0) false
    (fun x => x = waSol) where
  classified := by simp [waEngine]
  ty := rfl
  solve := by
    intro b x h
    simp only [waEngine, Except.ok.injEq] at h
    exact h.symm
  rename := fun x hx => hx
  shape := by
    rintro x rfl
    simp [waEngine, waSol, Verify.xAt, Shape]
  solution := by
    rintro x rfl X hX N hN
    exact wa_solution ρ X hX N hN
  onIC := ⟨⟨0, .num 0, .num 0⟩, .num 1, .num 0, 0, .num 0, fun _ _ => rfl⟩
  renameIC := fun _ _ _ _ _ => rfl

/-- The history: give `x(2) = 7`, compute, then give `x(0) = 4` instead. -/
def waState (e : Expr) : RecState :=
  ((((RecState.new e).step waEngine (.setICs [(2, .num 7)])).step waEngine .computeUpper).step waEngine (.setICs [(0, .num 4)]))

theorem wa_ics (e : Expr) : (waState e).ics = [(0, .num 4)] := by rfl

theorem wa_answer (e : Expr) : (query waEngine .lower (waState e)).2 = some (waEngine.onIC e ⟨.weighted, 1, 0, 0⟩ [(0, .num 4)] waSol) := by rfl

/-- **C138**, a concrete case: all hypotheses hold for `x(n) = sum(k, 0, n-1, x(k))`, after a history with other initial conditions. -/
theorem C138_nonvacuous (ρ : String → ℚ) (e : Expr) :
    SoundWeighted ratInterp waEngine OnIC.exOps "n" (fun _ => False) ρ e (.num 1) (.num 0) false (fun x => x = waSol) ∧
    RecReach waEngine e (waState e) ∧ FirstIC ratInterp "n" (fun _ => False) 0 (waState e).ics (.num 4) ∧
    (∃ u, (query waEngine .lower (waState e)).2 = some u ∧ idxNe "n" u = true) ∧
    WeightedAvg.SolvesWA ratInterp "n" ρ (.num 1) (.num 0) 0 false (OnIC.sumSeq 0) ∧ OnIC.sumSeq 0 0 = 4 := by
  refine ⟨wa_sound ρ e, .step _ (.step _ (.step _ .new)), ?_, ?_, ?_, by simp [OnIC.sumSeq]⟩
  · rw [wa_ics]
    exact ⟨by simp [ICMap.Sorted], by simp, by simp [ICMap.keys], ⟨by simp [Shape], by intro Y ρ t v _; simp [eval]⟩⟩
  · refine ⟨_, wa_answer e, ?_⟩
    have hic : Verify.hasIC "n" waSol = true := by
      simp [Verify.hasIC, waSol, Verify.xAt, hasX, Verify.hasOnlyIC, Verify.isICArg]
    simp only [waEngine, OnIC.evaluate, hic, Bool.true_eq_false, if_false]
    simp [OnIC.weighted, Verify.maxIC, Verify.getIC, waSol, Verify.xAt, substitute, mulE, addE, powE, idxNe]
  · have := OnIC.sumSeq_solves ρ 0
    exact_mod_cast this

end Purrs.Capstone
