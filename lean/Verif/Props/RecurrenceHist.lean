import Verif.Props.Recurrence

/-!
# C43, C44, C45, C47, C60: histories of calls on a recurrence
-/

namespace Purrs
open RecState

/-! ## Calls and histories -/

/-- The calls of the public interface that do not replace the recurrence. -/
inductive RecOp where
  | setICs (m : ICMap) | resetICs
  | computeExact | computeLower | computeUpper
  | getExact | getLower | getUpper

/-- The state after a call (which may have thrown). -/
def RecState.step (E : Engine) (s : RecState) : RecOp → RecState
  | .setICs m => (RecState.setICs E s m).1
  | .resetICs => s.resetICs
  | .computeExact => (RecState.computeExact E s).1
  | .computeLower => (RecState.computeLower E s).1
  | .computeUpper => (RecState.computeUpper E s).1
  | .getExact => (RecState.getExact E s).1
  | .getLower => (RecState.getLower E s).1
  | .getUpper => (RecState.getUpper E s).1

/-- The states of the object `Recurrence(e)` after any sequence of calls. -/
inductive RecReach (E : Engine) (e : Expr) : RecState → Prop
  | new : RecReach E e (RecState.new e)
  | step {s : RecState} (op : RecOp) : RecReach E e s → RecReach E e (s.step E op)

/-! ## What the engine is assumed to do -/

/-- A reading of expressions for which renaming system-generated symbols changes nothing, applying
initial conditions respects equality, and the expanded form of a solution is equal to it; moreover
the engine does classify, and does not report the success of a bound it did not compute. -/
structure Reading (E : Engine) (M : Type) where
  m : Expr → M
  rename : ∀ e, m (E.rename e) = m e
  onIC : ∀ rhs info ics a b, m a = m b → m (E.onIC rhs info ics a) = m (E.onIC rhs info ics b)
  solve : ∀ rhs info b e, E.solve rhs info b = .ok e →
    ∃ e0, E.solve rhs info false = .ok e0 ∧ m e = m e0
  classified : ∀ e, (E.classify e).1 ≠ .notYet
  bound : ∀ rhs info k, E.bound rhs info k ≠ .error .success

variable {E : Engine} {M : Type}

/-- `x` reads as the symbolic solution of `Recurrence(e)`, independently of any history: what the
solver gives, or the common value of the two bounds. -/
def IsSol (R : Reading E M) (e x : Expr) : Prop :=
  let info := (E.classify e).2.1
  let rhs := (E.classify e).2.2
  (∃ e0, E.solve rhs info false = .ok e0 ∧ R.m x = R.m e0) ∨
  (∃ l u, E.bound rhs info .lower = .ok l ∧ E.bound rhs info .upper = .ok u ∧ R.m l = R.m u ∧
    R.m x = R.m l)

/-- `x` reads as the symbolic lower (upper) bound of `Recurrence(e)`. -/
def IsBound (R : Reading E M) (e : Expr) (k : BoundKind) (x : Expr) : Prop :=
  IsSol R e x ∨ ∃ b, E.bound (E.classify e).2.2 (E.classify e).2.1 k = .ok b ∧ R.m x = R.m b

theorem IsSol.congr {R : Reading E M} {e x y : Expr} (h : IsSol R e x) (hxy : R.m y = R.m x) :
    IsSol R e y := by
  rcases h with ⟨e0, h1, h2⟩ | ⟨l, u, h1, h2, h3, h4⟩
  · exact Or.inl ⟨e0, h1, hxy.trans h2⟩
  · exact Or.inr ⟨l, u, h1, h2, h3, hxy.trans h4⟩

theorem IsBound.congr {R : Reading E M} {e x y : Expr} {k : BoundKind} (h : IsBound R e k x)
    (hxy : R.m y = R.m x) : IsBound R e k y := by
  rcases h with h | ⟨b, h1, h2⟩
  · exact Or.inl (h.congr hxy)
  · exact Or.inr ⟨b, h1, hxy.trans h2⟩

/-- If the recurrence is a functional equation its two bounds are different. -/
def BoundsDiffer (R : Reading E M) (e : Expr) : Prop :=
  (E.classify e).2.1.ty = .functional → ∀ l u,
    E.bound (E.classify e).2.2 (E.classify e).2.1 .lower = .ok l →
    E.bound (E.classify e).2.2 (E.classify e).2.1 .upper = .ok u → R.m l ≠ R.m u

/-- The invariant of a classified object. -/
structure Core (R : Reading E M) (e : Expr) (s : RecState) : Prop where
  cl : s.cl = (E.classify e).1
  rhs : s.rhs = (E.classify e).2.2
  info : s.info = (E.classify e).2.1
  exact : ∀ x, s.exact = some x → IsSol R e x
  lower : ∀ x, s.lower = some x → IsBound R e .lower x
  upper : ∀ x, s.upper = some x → IsBound R e .upper x
  lowEx : ∀ l x, s.lower = some l → s.exact = some x → R.m l = R.m x
  upEx : ∀ l x, s.upper = some l → s.exact = some x → R.m l = R.m x
  only : s.info.ty ≠ .nonLinear → s.info.ty ≠ .functional → s.exact = none → s.lower = none ∧ s.upper = none
  lowB : s.info.ty = .nonLinear ∨ s.info.ty = .functional → s.exact = none →
    ∀ x, s.lower = some x → ∃ b, E.bound s.rhs s.info .lower = .ok b ∧ R.m x = R.m b
  upB : s.info.ty = .nonLinear ∨ s.info.ty = .functional → s.exact = none →
    ∀ x, s.upper = some x → ∃ b, E.bound s.rhs s.info .upper = .ok b ∧ R.m x = R.m b
  noIC : s.ics = [] → s.evExact = none ∧ s.evLower = none ∧ s.evUpper = none
  evE : ∀ v, s.evExact = some v → ∃ x, s.exact = some x ∧
    R.m v = R.m (E.onIC s.rhs s.info s.ics x)
  evL : ∀ v, s.evLower = some v → ∃ x, (s.lower = some x ∨ s.exact = some x) ∧
    R.m v = R.m (E.onIC s.rhs s.info s.ics x)
  evU : ∀ v, s.evUpper = some v → ∃ x, (s.upper = some x ∨ s.exact = some x) ∧
    R.m v = R.m (E.onIC s.rhs s.info s.ics x)
  maxIC : s.info.ty = .maxFn ∨ s.info.ty = .unknown → s.ics = []

/-- The invariant of any object. -/
def RecInv (R : Reading E M) (e : Expr) (s : RecState) : Prop :=
  (s.cl = .notYet ∧ s.rhs = e ∧ s.exact = none ∧ s.lower = none ∧ s.upper = none ∧
    s.evExact = none ∧ s.evLower = none ∧ s.evUpper = none ∧ s.ics = []) ∨ Core R e s

theorem classify_core {R : Reading E M} {e : Expr} {s : RecState} (h : RecInv R e s) :
    Core R e (s.classify E) := by
  rcases h with ⟨h1, h2, h3, h4, h5, h6, h7, h8, h9⟩ | h
  · unfold RecState.classify
    rw [if_neg (not_not.2 h1)]
    subst h2
    constructor <;> simp_all
  · unfold RecState.classify
    rw [if_pos (by rw [h.cl]; exact R.classified e)]
    exact h

theorem core_tried {R : Reading E M} {e : Expr} {s : RecState} (h : Core R e s) (b : Bool) :
    Core R e { s with tried := b } := by
  constructor
  · exact h.cl
  · exact h.rhs
  · exact h.info
  · exact h.exact
  · exact h.lower
  · exact h.upper
  · exact h.lowEx
  · exact h.upEx
  · exact h.only
  · exact h.lowB
  · exact h.upB
  · exact h.noIC
  · exact h.evE
  · exact h.evL
  · exact h.evU
  · exact h.maxIC

theorem core_firstSol {R : Reading E M} {e : Expr} {s : RecState} (h : Core R e s) :
    Core R e (setFirstSol s) := by
  unfold setFirstSol
  constructor
  · exact h.cl
  · exact h.rhs
  · exact h.info
  · exact h.exact
  · exact h.lower
  · exact h.upper
  · exact h.lowEx
  · exact h.upEx
  · exact h.only
  · exact h.lowB
  · exact h.upB
  · exact h.noIC
  · exact h.evE
  · exact h.evL
  · exact h.evU
  · exact h.maxIC

theorem core_reset {R : Reading E M} {e : Expr} {s : RecState} (h : Core R e s) :
    Core R e s.resetICs := by
  unfold RecState.resetICs
  constructor
  · exact h.cl
  · exact h.rhs
  · exact h.info
  · exact h.exact
  · exact h.lower
  · exact h.upper
  · exact h.lowEx
  · exact h.upEx
  · exact h.only
  · exact h.lowB
  · exact h.upB
  all_goals simp

/-- Storing the three evaluated expressions computed from the exact solution. -/
theorem core_setEv {R : Reading E M} {e : Expr} {s : RecState} (h : Core R e s) {x v : Expr}
    (hx : s.exact = some x) (hv : R.m v = R.m (E.onIC s.rhs s.info s.ics x)) (hi : s.ics ≠ []) :
    Core R e { s with evExact := some v, evLower := some v, evUpper := some v } := by
  constructor
  · exact h.cl
  · exact h.rhs
  · exact h.info
  · exact h.exact
  · exact h.lower
  · exact h.upper
  · exact h.lowEx
  · exact h.upEx
  · exact h.only
  · exact h.lowB
  · exact h.upB
  · intro h'; exact absurd h' hi
  · intro w hw; simp only [Option.some.injEq] at hw; subst hw; exact ⟨x, hx, hv⟩
  · intro w hw; simp only [Option.some.injEq] at hw; subst hw; exact ⟨x, Or.inr hx, hv⟩
  · intro w hw; simp only [Option.some.injEq] at hw; subst hw; exact ⟨x, Or.inr hx, hv⟩
  · exact h.maxIC

/-- Storing a freshly computed solution: first the symbolic part, without initial conditions in
force or overwriting what depends on them. -/
theorem core_solve {R : Reading E M} {e : Expr} {s : RecState} (h : Core R e s) {b : Bool} {x : Expr}
    (hs : E.solve s.rhs s.info b = .ok x) 
    {ve vl vu : Option Expr}
    (hev : (s.ics = [] ∧ ve = none ∧ vl = none ∧ vu = none) ∨
      (s.ics ≠ [] ∧ ∃ v, R.m v = R.m (E.onIC s.rhs s.info s.ics x) ∧ ve = some v ∧ vl = some v ∧
        vu = some v) ∨ (s.ics ≠ [] ∧ ve = none ∧ vl = none ∧ vu = none)) :
    Core R e { s with exact := some x, lower := some x, upper := some x, evExact := ve,
                      evLower := vl, evUpper := vu } := by
  have hsol : IsSol R e x := by
    obtain ⟨e0, h1, h2⟩ := R.solve _ _ _ _ hs
    rw [h.rhs, h.info] at h1
    exact Or.inl ⟨e0, h1, h2⟩
  constructor
  · exact h.cl
  · exact h.rhs
  · exact h.info
  · intro y hy; simp only [Option.some.injEq] at hy; subst hy; exact hsol
  · intro y hy; simp only [Option.some.injEq] at hy; subst hy; exact Or.inl hsol
  · intro y hy; simp only [Option.some.injEq] at hy; subst hy; exact Or.inl hsol
  · intro l y hl hy
    simp only [Option.some.injEq] at hl hy; subst hl; subst hy; rfl
  · intro l y hl hy
    simp only [Option.some.injEq] at hl hy; subst hl; subst hy; rfl
  · intro _ _ h'; cases h'
  · intro _ h'; cases h'
  · intro _ h'; cases h'
  · intro h'
    rcases hev with ⟨-, h1⟩ | ⟨h1, -⟩ | ⟨-, h1⟩
    · exact h1
    · exact absurd h' h1
    · exact h1
  · intro w hw
    rcases hev with ⟨-, h1, -⟩ | ⟨-, v, hv, h1, -⟩ | ⟨-, h1, -⟩
    · simp [h1] at hw
    · simp only [h1, Option.some.injEq] at hw; subst hw; exact ⟨x, rfl, hv⟩
    · simp [h1] at hw
  · intro w hw
    rcases hev with ⟨-, -, h1, -⟩ | ⟨-, v, hv, -, h1, -⟩ | ⟨-, -, h1, -⟩
    · simp [h1] at hw
    · simp only [h1, Option.some.injEq] at hw; subst hw; exact ⟨x, Or.inl rfl, hv⟩
    · simp [h1] at hw
  · intro w hw
    rcases hev with ⟨-, -, -, h1⟩ | ⟨-, v, hv, -, -, h1⟩ | ⟨-, -, -, h1⟩
    · simp [h1] at hw
    · simp only [h1, Option.some.injEq] at hw; subst hw; exact ⟨x, Or.inl rfl, hv⟩
    · simp [h1] at hw
  · exact h.maxIC

theorem core_computeFinite {R : Reading E M} {e : Expr} {s : RecState} (h : Core R e s)
    (hx : s.exact = none) (ht : s.info.ty ≠ .nonLinear) (ht' : s.info.ty ≠ .functional) :
    Core R e (computeFinite E s).1 := by
  unfold computeFinite
  cases hs : E.solve s.rhs s.info (!s.ics.isEmpty) with
  | error st => exact h
  | ok x =>
    simp only
    have hlu := h.only ht ht' hx
    have hee : s.evExact = none := by
      cases hv : s.evExact with
      | none => rfl
      | some v => obtain ⟨y, h1, -⟩ := h.evE v hv; rw [hx] at h1; cases h1
    have hel : s.evLower = none := by
      cases hv : s.evLower with
      | none => rfl
      | some v =>
        obtain ⟨y, h1, -⟩ := h.evL v hv
        rw [hx, hlu.1] at h1; rcases h1 with h1 | h1 <;> cases h1
    have heu : s.evUpper = none := by
      cases hv : s.evUpper with
      | none => rfl
      | some v =>
        obtain ⟨y, h1, -⟩ := h.evU v hv
        rw [hx, hlu.2] at h1; rcases h1 with h1 | h1 <;> cases h1
    by_cases hi : s.ics ≠ [] ∧ s.info.order > 0
    · rw [if_pos hi]
      exact core_solve h hs (Or.inr (Or.inl ⟨hi.1, _, R.rename _, rfl, rfl, rfl⟩))
    · rw [if_neg hi]
      by_cases hic : s.ics = []
      · exact core_solve h hs (Or.inl ⟨hic, hee, hel, heu⟩)
      · exact core_solve h hs (Or.inr (Or.inr ⟨hic, hee, hel, heu⟩))

theorem core_computeOther {R : Reading E M} {e : Expr} {s : RecState} (h : Core R e s) :
    Core R e (computeOther E s).1 := by
  unfold computeOther
  cases hs : E.solve s.rhs s.info (!s.ics.isEmpty) with
  | error st => exact h
  | ok x =>
    simp only
    by_cases hi : s.ics ≠ []
    · rw [if_pos hi]
      exact core_solve h hs (Or.inr (Or.inl ⟨hi, _, rfl, rfl, rfl, rfl⟩))
    · rw [if_neg hi]
      rw [not_not] at hi
      obtain ⟨h1, h2, h3⟩ := h.noIC hi
      exact core_solve h hs (Or.inl ⟨hi, h1, h2, h3⟩)

theorem core_computeMax {R : Reading E M} {e : Expr} {s : RecState} (h : Core R e s)
    (hx : s.exact = none) (ht : s.info.ty = .maxFn) : Core R e (computeMax E s).1 := by
  unfold computeMax
  cases hs : E.solve s.rhs s.info (!s.ics.isEmpty) with
  | error st => exact h
  | ok x =>
    have hi := h.maxIC (Or.inl ht)
    have hlu := h.only (by rw [ht]; decide) (by rw [ht]; decide) hx
    obtain ⟨h1, h2, h3⟩ := h.noIC hi
    have hsol : IsSol R e x := by
      obtain ⟨e0, h1, h2⟩ := R.solve _ _ _ _ hs
      rw [h.rhs, h.info] at h1
      exact Or.inl ⟨e0, h1, h2⟩
    simp only
    rw [if_neg (not_not.2 hi)]
    constructor
    · exact h.cl
    · exact h.rhs
    · exact h.info
    · intro y hy; simp only [Option.some.injEq] at hy; subst hy; exact hsol
    · exact h.lower
    · exact h.upper
    · intro l y hl; simp only [hlu.1] at hl; cases hl
    · intro l y hl; simp only [hlu.2] at hl; cases hl
    · intro _ _ h'; cases h'
    · intro _ h'; cases h'
    · intro _ h'; cases h'
    · exact h.noIC
    · intro w hw; simp only [h1] at hw; cases hw
    · intro w hw; simp only [h2] at hw; cases hw
    · intro w hw; simp only [h3] at hw; cases hw
    · exact h.maxIC

/-- Storing a bound of a non-linear recurrence or functional equation. -/
theorem core_boundLower {R : Reading E M} {e : Expr} {s : RecState} (h : Core R e s) {b : Expr}
    (hb : E.bound s.rhs s.info .lower = .ok b)
    (ht : s.info.ty = .nonLinear ∨ s.info.ty = .functional) (hx : s.exact = none) : Core R e { s with lower := some b } := by
  have hb' := hb
  rw [h.rhs, h.info] at hb'
  constructor
  · exact h.cl
  · exact h.rhs
  · exact h.info
  · exact h.exact
  · intro y hy; simp only [Option.some.injEq] at hy; subst hy; exact Or.inr ⟨b, hb', rfl⟩
  · exact h.upper
  · intro k y _ hy; simp only [hx] at hy; cases hy
  · exact h.upEx
  · intro h1 h2; exact absurd ht (not_or.2 ⟨h1, h2⟩)
  · intro _ _ y hy; simp only [Option.some.injEq] at hy; subst hy; exact ⟨b, hb, rfl⟩
  · exact h.upB
  · exact h.noIC
  · exact h.evE
  · intro w hw
    obtain ⟨y, h2, h3⟩ := h.evL w hw
    rw [hx] at h2
    obtain ⟨b', hb1, hb2⟩ := h.lowB ht hx y (h2.resolve_right (by simp))
    rw [hb] at hb1; cases hb1
    exact ⟨b, Or.inl rfl, h3.trans (R.onIC _ _ _ _ _ hb2)⟩
  · exact h.evU
  · exact h.maxIC

theorem core_boundUpper {R : Reading E M} {e : Expr} {s : RecState} (h : Core R e s) {b : Expr}
    (hb : E.bound s.rhs s.info .upper = .ok b)
    (ht : s.info.ty = .nonLinear ∨ s.info.ty = .functional) (hx : s.exact = none) : Core R e { s with upper := some b } := by
  have hb' := hb
  rw [h.rhs, h.info] at hb'
  constructor
  · exact h.cl
  · exact h.rhs
  · exact h.info
  · exact h.exact
  · exact h.lower
  · intro y hy; simp only [Option.some.injEq] at hy; subst hy; exact Or.inr ⟨b, hb', rfl⟩
  · exact h.lowEx
  · intro k y _ hy; simp only [hx] at hy; cases hy
  · intro h1 h2; exact absurd ht (not_or.2 ⟨h1, h2⟩)
  · exact h.lowB
  · intro _ _ y hy; simp only [Option.some.injEq] at hy; subst hy; exact ⟨b, hb, rfl⟩
  · exact h.noIC
  · exact h.evE
  · exact h.evL
  · intro w hw
    obtain ⟨y, h2, h3⟩ := h.evU w hw
    rw [hx] at h2
    obtain ⟨b', hb1, hb2⟩ := h.upB ht hx y (h2.resolve_right (by simp))
    rw [hb] at hb1; cases hb1
    exact ⟨b, Or.inl rfl, h3.trans (R.onIC _ _ _ _ _ hb2)⟩
  · exact h.maxIC

theorem approx_fields (s : RecState) (k : BoundKind) : (approxFunctional E s k).1.ics = s.ics ∧
    (approxFunctional E s k).1.rhs = s.rhs ∧ (approxFunctional E s k).1.info = s.info := by
  unfold approxFunctional
  cases E.bound s.rhs s.info k with
  | error st => exact ⟨rfl, rfl, rfl⟩
  | ok b => cases k <;> exact ⟨rfl, rfl, rfl⟩

theorem approxLower_some (R : Reading E M) {s : RecState}
    (h : (approxFunctional E s .lower).2 = .success) :
    ∃ b, (approxFunctional E s .lower).1.lower = some b := by
  unfold approxFunctional at *
  cases hb : E.bound s.rhs s.info .lower with
  | error st =>
    rw [hb] at h
    simp only at h
    subst h
    exact absurd hb (R.bound _ _ _)
  | ok b => exact ⟨b, rfl⟩

theorem approxUpper_some (R : Reading E M) {s : RecState}
    (h : (approxFunctional E s .upper).2 = .success) :
    ∃ b, (approxFunctional E s .upper).1.upper = some b := by
  unfold approxFunctional at *
  cases hb : E.bound s.rhs s.info .upper with
  | error st =>
    rw [hb] at h
    simp only at h
    subst h
    exact absurd hb (R.bound _ _ _)
  | ok b => exact ⟨b, rfl⟩

/-- One bound of a functional equation. -/
theorem core_approx {R : Reading E M} {e : Expr} {s : RecState} (h : Core R e s)
    (hf : BoundsDiffer R e) (ht : s.info.ty = .functional) (hx : s.exact = none) (k : BoundKind) :
    Core R e (approxFunctional E s k).1 ∧ (approxFunctional E s k).1.exact = none := by
  have hf' := hf (h.info ▸ ht)
  rw [← h.rhs, ← h.info] at hf'
  unfold approxFunctional
  cases hb : E.bound s.rhs s.info k with
  | error st => exact ⟨h, hx⟩
  | ok b =>
    cases k with
    | lower =>
      have hne : s.upper ≠ some b := by
        intro hu
        obtain ⟨c, hc1, hc2⟩ := h.upB (Or.inr ht) hx b hu
        exact hf' b c hb hc1 hc2
      simp only
      rw [if_neg hne]
      exact ⟨core_boundLower h hb (Or.inr ht) hx, hx⟩
    | upper =>
      have hne : s.lower ≠ some b := by
        intro hu
        obtain ⟨c, hc1, hc2⟩ := h.lowB (Or.inr ht) hx b hu
        exact hf' c b hc1 hb hc2.symm
      simp only
      rw [if_neg hne]
      exact ⟨core_boundUpper h hb (Or.inr ht) hx, hx⟩

theorem core_computeFunctional {R : Reading E M} {e : Expr} {s : RecState} (h : Core R e s)
    (hf : BoundsDiffer R e) (ht : s.info.ty = .functional) (hx : s.exact = none) :
    Core R e (computeFunctional E s).1 := by
  unfold computeFunctional
  simp only
  have h1 := core_approx h hf ht hx .lower
  have f1 := approx_fields (E := E) s .lower
  have s1 : ∀ hs : (approxFunctional E s .lower).2 = .success,
    ∃ b, (approxFunctional E s .lower).1.lower = some b := fun hs => approxLower_some R hs
  generalize approxFunctional E s .lower = r1 at *
  split_ifs with hs1 hs2 hs3
  · exfalso
    have ht1 : r1.1.info.ty = .functional := by rw [f1.2.2]; exact ht
    have h2 := core_approx h1.1 hf ht1 h1.2 .upper
    have f2 := approx_fields (E := E) r1.1 .upper
    obtain ⟨b, hb⟩ := approxUpper_some R hs2.1
    generalize approxFunctional E r1.1 .upper = r2 at *
    have ht2 : r2.1.info.ty = .functional := by rw [f2.2.2]; exact ht1
    obtain ⟨c, hc1, hc2⟩ := h2.1.upB (Or.inr ht2) h2.2 b hb
    obtain ⟨d, hd1, hd2⟩ := h2.1.lowB (Or.inr ht2) h2.2 b (hs2.2.trans hb)
    rw [h2.1.rhs, h2.1.info] at hc1 hd1
    exact hf (h2.1.info ▸ ht2) d c hd1 hc1 (hd2.symm.trans hc2)
  · exfalso
    have ht1 : r1.1.info.ty = .functional := by rw [f1.2.2]; exact ht
    have h2 := core_approx h1.1 hf ht1 h1.2 .upper
    have f2 := approx_fields (E := E) r1.1 .upper
    obtain ⟨b, hb⟩ := approxUpper_some R hs2.1
    generalize approxFunctional E r1.1 .upper = r2 at *
    have ht2 : r2.1.info.ty = .functional := by rw [f2.2.2]; exact ht1
    obtain ⟨c, hc1, hc2⟩ := h2.1.upB (Or.inr ht2) h2.2 b hb
    obtain ⟨d, hd1, hd2⟩ := h2.1.lowB (Or.inr ht2) h2.2 b (hs2.2.trans hb)
    rw [h2.1.rhs, h2.1.info] at hc1 hd1
    exact hf (h2.1.info ▸ ht2) d c hd1 hc1 (hd2.symm.trans hc2)
  · exact (core_approx h1.1 hf (by rw [f1.2.2]; exact ht) h1.2 .upper).1
  · exact h1.1

theorem computeExactTried_some {s : RecState} {x : Expr} (hx : s.exact = some x) :
    computeExactTried E s = if s.ics ≠ [] ∧ s.evExact = none then
        ({ s with evExact := some (E.onIC s.rhs s.info s.ics x),
                  evLower := some (E.onIC s.rhs s.info s.ics x),
                  evUpper := some (E.onIC s.rhs s.info s.ics x) }, some .success)
      else (s, some .success) := by
  unfold computeExactTried; rw [hx]

theorem computeExactTried_eq {s : RecState} (hx : s.exact = none)
    (hlu : s.lower ≠ none ∧ s.lower = s.upper) :
    computeExactTried E s = ({ s with exact := s.lower }, some .success) := by
  unfold computeExactTried; rw [hx]
  simp only
  rw [if_pos hlu]

theorem computeExactTried_fresh {s : RecState} (hx : s.exact = none)
    (hlu : ¬ (s.lower ≠ none ∧ s.lower = s.upper)) :
    computeExactTried E s = if (s.classify E).cl = .success then
          match (s.classify E).info.ty with
          | .orderZero => (computeFinite E (s.classify E)).map id some
          | .linConst => (computeFinite E (s.classify E)).map id some
          | .linVar => (computeFinite E (s.classify E)).map id some
          | .functional => (computeFunctional E (s.classify E)).map id some
          | .nonLinear => (computeOther E (s.classify E)).map id some
          | .weighted => (computeOther E (s.classify E)).map id some
          | .maxFn => (computeMax E (s.classify E)).map id some
          | .unknown => (s.classify E, none)
        else (s.classify E, mapStatus (s.classify E).cl) := by
  unfold computeExactTried; rw [hx]
  simp only
  rw [if_neg hlu]
  generalize s.classify E = t
  cases t.info.ty <;> rfl

theorem core_computeExact {R : Reading E M} {e : Expr} {s0 : RecState} (h0 : RecInv R e s0)
    (hf : BoundsDiffer R e) : RecInv R e (computeExact E s0).1 := by
  unfold computeExact
  have hinv : RecInv R e { s0 with tried := true } := by
    rcases h0 with h | h
    · exact Or.inl h
    · exact Or.inr (core_tried h _)
  generalize ({ s0 with tried := true } : RecState) = s at *
  cases hx : s.exact with
  | some x =>
    rcases hinv with h | h
    · rw [h.2.2.1] at hx; cases hx
    · rw [computeExactTried_some hx]
      by_cases hc : s.ics ≠ [] ∧ s.evExact = none
      · rw [if_pos hc]
        exact Or.inr (core_setEv h hx rfl hc.1)
      · rw [if_neg hc]; exact Or.inr h
  | none =>
    by_cases hlu : s.lower ≠ none ∧ s.lower = s.upper
    · rw [computeExactTried_eq hx hlu]
      rcases hinv with h | h
      · exact absurd h.2.2.2.1 hlu.1
      · obtain ⟨l, hl⟩ := Option.ne_none_iff_exists'.1 hlu.1
        have hu : s.upper = some l := by rw [← hlu.2, hl]
        have hnl : s.info.ty = .nonLinear ∨ s.info.ty = .functional := by
          by_contra hn
          rw [not_or] at hn
          exact hlu.1 (h.only hn.1 hn.2 hx).1
        obtain ⟨b, hb1, hb2⟩ := h.lowB hnl hx l hl
        obtain ⟨c, hc1, hc2⟩ := h.upB hnl hx l hu
        rw [h.rhs, h.info] at hb1 hc1
        have hsol : IsSol R e l := Or.inr ⟨b, c, hb1, hc1, hb2.symm.trans hc2, hb2⟩
        refine Or.inr ?_
        constructor
        · exact h.cl
        · exact h.rhs
        · exact h.info
        · intro y hy; simp only [hl, Option.some.injEq] at hy; subst hy; exact hsol
        · exact h.lower
        · exact h.upper
        · intro k y hk hy
          simp only [hl, Option.some.injEq] at hk hy; subst hk; subst hy; rfl
        · intro k y hk hy
          simp only [hl, hu, Option.some.injEq] at hk hy; subst hk; subst hy; rfl
        · intro _ _ h'; simp [hl] at h'
        · intro _ h'; simp [hl] at h'
        · intro _ h'; simp [hl] at h'
        · exact h.noIC
        · intro w hw
          obtain ⟨y, h1, h2⟩ := h.evE w hw
          rw [hx] at h1; cases h1
        · intro w hw
          obtain ⟨y, h1, h2⟩ := h.evL w hw
          refine ⟨y, Or.inl ?_, h2⟩
          rw [hx] at h1; exact h1.resolve_right (by simp)
        · intro w hw
          obtain ⟨y, h1, h2⟩ := h.evU w hw
          refine ⟨y, Or.inl ?_, h2⟩
          rw [hx] at h1; exact h1.resolve_right (by simp)
        · exact h.maxIC
    · rw [computeExactTried_fresh hx hlu]
      have hc := classify_core hinv
      have hx1 : (s.classify E).exact = none := by
        unfold RecState.classify; split_ifs <;> exact hx
      generalize s.classify E = t at *
      refine Or.inr ?_
      by_cases hsucc : t.cl = .success
      · rw [if_pos hsucc]
        cases ht : t.info.ty with
        | unknown => exact hc
        | orderZero => exact core_computeFinite hc hx1 (by rw [ht]; decide) (by rw [ht]; decide)
        | linConst => exact core_computeFinite hc hx1 (by rw [ht]; decide) (by rw [ht]; decide)
        | linVar => exact core_computeFinite hc hx1 (by rw [ht]; decide) (by rw [ht]; decide)
        | nonLinear => exact core_computeOther hc
        | weighted => exact core_computeOther hc
        | functional => exact core_computeFunctional hc hf ht hx1
        | maxFn => exact core_computeMax hc hx1 ht
      · rw [if_neg hsucc]; exact hc

theorem core_setEvLower {R : Reading E M} {e : Expr} {s : RecState} (h : Core R e s) {x v : Expr}
    (hx : s.lower = some x) (hv : R.m v = R.m (E.onIC s.rhs s.info s.ics x)) (hi : s.ics ≠ []) :
    Core R e { s with evLower := some v } := by
  constructor
  · exact h.cl
  · exact h.rhs
  · exact h.info
  · exact h.exact
  · exact h.lower
  · exact h.upper
  · exact h.lowEx
  · exact h.upEx
  · exact h.only
  · exact h.lowB
  · exact h.upB
  · intro h'; exact absurd h' hi
  · exact h.evE
  · intro w hw; simp only [Option.some.injEq] at hw; subst hw; exact ⟨x, Or.inl hx, hv⟩
  · exact h.evU
  · exact h.maxIC

theorem core_setEvUpper {R : Reading E M} {e : Expr} {s : RecState} (h : Core R e s) {x v : Expr}
    (hx : s.upper = some x) (hv : R.m v = R.m (E.onIC s.rhs s.info s.ics x)) (hi : s.ics ≠ []) :
    Core R e { s with evUpper := some v } := by
  constructor
  · exact h.cl
  · exact h.rhs
  · exact h.info
  · exact h.exact
  · exact h.lower
  · exact h.upper
  · exact h.lowEx
  · exact h.upEx
  · exact h.only
  · exact h.lowB
  · exact h.upB
  · intro h'; exact absurd h' hi
  · exact h.evE
  · exact h.evL
  · intro w hw; simp only [Option.some.injEq] at hw; subst hw; exact ⟨x, Or.inl hx, hv⟩
  · exact h.maxIC

/-- Copying the exact solution to a missing lower bound. -/
theorem core_lowerOfExact {R : Reading E M} {e : Expr} {s : RecState} (h : Core R e s) {x : Expr}
    (hx : s.exact = some x) (hl : s.lower = none) {ve vl : Option Expr}
    (hev : (ve = s.evExact ∧ vl = s.evLower) ∨ (s.ics ≠ [] ∧
      ve = some (E.onIC s.rhs s.info s.ics x) ∧ vl = some (E.onIC s.rhs s.info s.ics x))) :
    Core R e { s with lower := some x, evExact := ve, evLower := vl } := by
  constructor
  · exact h.cl
  · exact h.rhs
  · exact h.info
  · exact h.exact
  · intro y hy; simp only [Option.some.injEq] at hy; subst hy; exact Or.inl (h.exact _ hx)
  · exact h.upper
  · intro k y hk hy
    simp only [hx, Option.some.injEq] at hk hy; subst hk; subst hy; rfl
  · exact h.upEx
  · intro _ _ h'; simp only [hx] at h'; cases h'
  · intro _ h'; simp only [hx] at h'; cases h'
  · intro _ h'; simp only [hx] at h'; cases h'
  · intro hi
    rcases hev with ⟨h1, h2⟩ | ⟨h1, -⟩
    · obtain ⟨a, b, c⟩ := h.noIC hi; exact ⟨h1.trans a, h2.trans b, c⟩
    · exact absurd hi h1
  · intro w hw
    rcases hev with ⟨h1, -⟩ | ⟨-, h1, -⟩
    · exact h.evE w (h1 ▸ hw)
    · simp only [h1, Option.some.injEq] at hw; subst hw; exact ⟨x, hx, rfl⟩
  · intro w hw
    rcases hev with ⟨-, h1⟩ | ⟨-, -, h1⟩
    · obtain ⟨y, h2, h3⟩ := h.evL w (h1 ▸ hw)
      rw [hl] at h2
      exact ⟨y, Or.inr (h2.resolve_left (by simp)), h3⟩
    · simp only [h1, Option.some.injEq] at hw; subst hw; exact ⟨x, Or.inr hx, rfl⟩
  · exact h.evU
  · exact h.maxIC

theorem core_upperOfExact {R : Reading E M} {e : Expr} {s : RecState} (h : Core R e s) {x : Expr}
    (hx : s.exact = some x) (hl : s.upper = none) {ve vl : Option Expr}
    (hev : (ve = s.evExact ∧ vl = s.evUpper) ∨ (s.ics ≠ [] ∧
      ve = some (E.onIC s.rhs s.info s.ics x) ∧ vl = some (E.onIC s.rhs s.info s.ics x))) :
    Core R e { s with upper := some x, evExact := ve, evUpper := vl } := by
  constructor
  · exact h.cl
  · exact h.rhs
  · exact h.info
  · exact h.exact
  · exact h.lower
  · intro y hy; simp only [Option.some.injEq] at hy; subst hy; exact Or.inl (h.exact _ hx)
  · exact h.lowEx
  · intro k y hk hy
    simp only [hx, Option.some.injEq] at hk hy; subst hk; subst hy; rfl
  · intro _ _ h'; simp only [hx] at h'; cases h'
  · intro _ h'; simp only [hx] at h'; cases h'
  · intro _ h'; simp only [hx] at h'; cases h'
  · intro hi
    rcases hev with ⟨h1, h2⟩ | ⟨h1, -⟩
    · obtain ⟨a, b, c⟩ := h.noIC hi; exact ⟨h1.trans a, b, h2.trans c⟩
    · exact absurd hi h1
  · intro w hw
    rcases hev with ⟨h1, -⟩ | ⟨-, h1, -⟩
    · exact h.evE w (h1 ▸ hw)
    · simp only [h1, Option.some.injEq] at hw; subst hw; exact ⟨x, hx, rfl⟩
  · exact h.evL
  · intro w hw
    rcases hev with ⟨-, h1⟩ | ⟨-, -, h1⟩
    · obtain ⟨y, h2, h3⟩ := h.evU w (h1 ▸ hw)
      rw [hl] at h2
      exact ⟨y, Or.inr (h2.resolve_left (by simp)), h3⟩
    · simp only [h1, Option.some.injEq] at hw; subst hw; exact ⟨x, Or.inr hx, rfl⟩
  · exact h.maxIC

theorem classify_fields (E : Engine) (s : RecState) : (s.classify E).exact = s.exact ∧
    (s.classify E).lower = s.lower ∧ (s.classify E).upper = s.upper ∧
    (s.classify E).tried = s.tried ∧ (s.classify E).ics = s.ics := by
  unfold RecState.classify; split_ifs <;> exact ⟨rfl, rfl, rfl, rfl, rfl⟩

theorem computeLower_some {s : RecState} {l : Expr} (hl : s.lower = some l) :
    computeLower E s = if s.ics ≠ [] ∧ s.evLower = none then
        ({ s with evLower := some (E.onIC s.rhs s.info s.ics l) }, some .success)
      else (s, some .success) := by
  unfold computeLower; rw [hl]

theorem computeLower_exact {s : RecState} {x : Expr} (hl : s.lower = none) (hx : s.exact = some x) :
    computeLower E s = if s.ics ≠ [] ∧ s.evLower = none then
          ({ s with evExact := some (E.onIC s.rhs s.info s.ics x),
                    evLower := some (E.onIC s.rhs s.info s.ics x), lower := some x }, some .success)
        else ({ s with lower := some x }, some .success) := by
  unfold computeLower; rw [hl, hx]

theorem computeLower_fresh {s : RecState} (hl : s.lower = none) (hx : s.exact = none) :
    computeLower E s = if (s.classify E).cl = .success then
          match (s.classify E).info.ty with
          | .orderZero => if !(s.classify E).tried then computeExact E (s.classify E)
              else (s.classify E, some .tooComplex)
          | .linConst => if !(s.classify E).tried then computeExact E (s.classify E)
              else (s.classify E, some .tooComplex)
          | .linVar => if !(s.classify E).tried then computeExact E (s.classify E)
              else (s.classify E, some .tooComplex)
          | .weighted => if !(s.classify E).tried then computeExact E (s.classify E)
              else (s.classify E, some .tooComplex)
          | .functional =>
              if (approxFunctional E (s.classify E) .lower).2 = .success ∧
                  (s.classify E).ics ≠ [] then
                ({ (approxFunctional E (s.classify E) .lower).1 with
                    evLower := (approxFunctional E (s.classify E) .lower).1.lower.map fun l =>
                      E.onIC (s.classify E).rhs (s.classify E).info (s.classify E).ics l },
                  some .success)
              else ((approxFunctional E (s.classify E) .lower).1,
                some (approxFunctional E (s.classify E) .lower).2)
          | .nonLinear =>
              match E.bound (s.classify E).rhs (s.classify E).info .lower with
              | .error st => (s.classify E, some st)
              | .ok b => ({ s.classify E with lower := some b }, some .success)
          | .maxFn => (s.classify E, some .tooComplex)
          | .unknown => (s.classify E, none)
        else (s.classify E, mapStatus (s.classify E).cl) := by
  unfold computeLower; rw [hl, hx]
  simp only
  generalize s.classify E = t
  cases t.info.ty <;> rfl

theorem core_computeLower {R : Reading E M} {e : Expr} {s : RecState} (h : RecInv R e s)
    (hf : BoundsDiffer R e) : RecInv R e (computeLower E s).1 := by
  cases hl : s.lower with
  | some l =>
    rw [computeLower_some hl]
    rcases h with h | h
    · rw [h.2.2.2.1] at hl; cases hl
    · split_ifs with hc
      · exact Or.inr (core_setEvLower h hl rfl hc.1)
      · exact Or.inr h
  | none =>
    cases hx : s.exact with
    | some x =>
      rw [computeLower_exact hl hx]
      rcases h with h | h
      · rw [h.2.2.1] at hx; cases hx
      · split_ifs with hc
        · exact Or.inr (core_lowerOfExact h hx hl (Or.inr ⟨hc.1, rfl, rfl⟩))
        · exact Or.inr (core_lowerOfExact h hx hl (Or.inl ⟨rfl, rfl⟩))
    | none =>
      rw [computeLower_fresh hl hx]
      have hc := classify_core h
      obtain ⟨f1, f2, f3, f4, f5⟩ := classify_fields E s
      rw [hx] at f1; rw [hl] at f2
      generalize s.classify E = t at *
      by_cases hsucc : t.cl = .success
      · rw [if_pos hsucc]
        cases ht : t.info.ty with
        | unknown => exact Or.inr hc
        | functional =>
          simp only
          have ha := core_approx hc hf ht f1 .lower
          split_ifs with hk
          · refine Or.inr ?_
            simp only
            obtain ⟨b, hb⟩ := approxLower_some R hk.1
            rw [Option.map_eq_some_iff.2 ⟨b, hb, rfl⟩]
            have hi : (approxFunctional E t .lower).1.ics = t.ics := (approx_fields _ _).1
            have hr : (approxFunctional E t .lower).1.rhs = t.rhs := (approx_fields _ _).2.1
            have hn : (approxFunctional E t .lower).1.info = t.info := (approx_fields _ _).2.2
            refine core_setEvLower ha.1 hb ?_ (by rw [hi]; exact hk.2)
            rw [hi, hr, hn]
          · exact Or.inr ha.1
        | maxFn => exact Or.inr hc
        | nonLinear =>
          simp only
          cases hb : E.bound t.rhs t.info .lower with
          | error st => exact Or.inr hc
          | ok b => exact Or.inr (core_boundLower hc hb (Or.inl ht) f1)
        | _ =>
          simp only
          split_ifs
          · exact core_computeExact (Or.inr hc) hf
          · exact Or.inr hc
      · rw [if_neg hsucc]; exact Or.inr hc

theorem computeUpper_some {s : RecState} {l : Expr} (hl : s.upper = some l) :
    computeUpper E s = if s.ics ≠ [] ∧ s.evUpper = none then
        ({ s with evUpper := some (E.onIC s.rhs s.info s.ics l) }, some .success)
      else (s, some .success) := by
  unfold computeUpper; rw [hl]

theorem computeUpper_exact {s : RecState} {x : Expr} (hl : s.upper = none) (hx : s.exact = some x) :
    computeUpper E s = if s.ics ≠ [] ∧ s.evUpper = none then
          ({ s with evExact := some (E.onIC s.rhs s.info s.ics x),
                    evUpper := some (E.onIC s.rhs s.info s.ics x), upper := some x }, some .success)
        else ({ s with upper := some x }, some .success) := by
  unfold computeUpper; rw [hl, hx]

theorem computeUpper_fresh {s : RecState} (hl : s.upper = none) (hx : s.exact = none) :
    computeUpper E s = if (s.classify E).cl = .success then
          match (s.classify E).info.ty with
          | .orderZero => if !(s.classify E).tried then computeExact E (s.classify E)
              else (s.classify E, some .tooComplex)
          | .linConst => if !(s.classify E).tried then computeExact E (s.classify E)
              else (s.classify E, some .tooComplex)
          | .linVar => if !(s.classify E).tried then computeExact E (s.classify E)
              else (s.classify E, some .tooComplex)
          | .weighted => if !(s.classify E).tried then computeExact E (s.classify E)
              else (s.classify E, some .tooComplex)
          | .functional =>
              if (approxFunctional E (s.classify E) .upper).2 = .success ∧
                  (s.classify E).ics ≠ [] then
                ({ (approxFunctional E (s.classify E) .upper).1 with
                    evUpper := (approxFunctional E (s.classify E) .upper).1.upper.map fun l =>
                      E.onIC (s.classify E).rhs (s.classify E).info (s.classify E).ics l },
                  some .success)
              else ((approxFunctional E (s.classify E) .upper).1,
                some (approxFunctional E (s.classify E) .upper).2)
          | .nonLinear =>
              match E.bound (s.classify E).rhs (s.classify E).info .upper with
              | .error st => (s.classify E, some st)
              | .ok b => ({ s.classify E with upper := some b }, some .success)
          | .maxFn => (s.classify E, some .tooComplex)
          | .unknown => (s.classify E, none)
        else (s.classify E, mapStatus (s.classify E).cl) := by
  unfold computeUpper; rw [hl, hx]
  simp only
  generalize s.classify E = t
  cases t.info.ty <;> rfl

theorem core_computeUpper {R : Reading E M} {e : Expr} {s : RecState} (h : RecInv R e s)
    (hf : BoundsDiffer R e) : RecInv R e (computeUpper E s).1 := by
  cases hl : s.upper with
  | some l =>
    rw [computeUpper_some hl]
    rcases h with h | h
    · rw [h.2.2.2.2.1] at hl; cases hl
    · split_ifs with hc
      · exact Or.inr (core_setEvUpper h hl rfl hc.1)
      · exact Or.inr h
  | none =>
    cases hx : s.exact with
    | some x =>
      rw [computeUpper_exact hl hx]
      rcases h with h | h
      · rw [h.2.2.1] at hx; cases hx
      · split_ifs with hc
        · exact Or.inr (core_upperOfExact h hx hl (Or.inr ⟨hc.1, rfl, rfl⟩))
        · exact Or.inr (core_upperOfExact h hx hl (Or.inl ⟨rfl, rfl⟩))
    | none =>
      rw [computeUpper_fresh hl hx]
      have hc := classify_core h
      obtain ⟨f1, f2, f3, f4, f5⟩ := classify_fields E s
      rw [hx] at f1; rw [hl] at f3
      generalize s.classify E = t at *
      by_cases hsucc : t.cl = .success
      · rw [if_pos hsucc]
        cases ht : t.info.ty with
        | unknown => exact Or.inr hc
        | functional =>
          simp only
          have ha := core_approx hc hf ht f1 .upper
          split_ifs with hk
          · refine Or.inr ?_
            simp only
            obtain ⟨b, hb⟩ := approxUpper_some R hk.1
            rw [Option.map_eq_some_iff.2 ⟨b, hb, rfl⟩]
            have hi : (approxFunctional E t .upper).1.ics = t.ics := (approx_fields _ _).1
            have hr : (approxFunctional E t .upper).1.rhs = t.rhs := (approx_fields _ _).2.1
            have hn : (approxFunctional E t .upper).1.info = t.info := (approx_fields _ _).2.2
            refine core_setEvUpper ha.1 hb ?_ (by rw [hi]; exact hk.2)
            rw [hi, hr, hn]
          · exact Or.inr ha.1
        | maxFn => exact Or.inr hc
        | nonLinear =>
          simp only
          cases hb : E.bound t.rhs t.info .upper with
          | error st => exact Or.inr hc
          | ok b => exact Or.inr (core_boundUpper hc hb (Or.inl ht) f1)
        | _ =>
          simp only
          split_ifs
          · exact core_computeExact (Or.inr hc) hf
          · exact Or.inr hc
      · rw [if_neg hsucc]; exact Or.inr hc

/-- Renaming the stored solution (no initial conditions in force). -/
theorem core_renameExact {R : Reading E M} {e : Expr} {s : RecState} (h : Core R e s) {x : Expr}
    (hx : s.exact = some x) (hi : s.ics = []) : Core R e { s with exact := some (E.rename x) } := by
  obtain ⟨n1, n2, n3⟩ := h.noIC hi
  constructor
  · exact h.cl
  · exact h.rhs
  · exact h.info
  · intro y hy; simp only [Option.some.injEq] at hy; subst hy
    exact (h.exact x hx).congr (R.rename x)
  · exact h.lower
  · exact h.upper
  · intro l y hl hy; simp only [Option.some.injEq] at hy; subst hy
    rw [R.rename]; exact h.lowEx l x hl hx
  · intro l y hl hy; simp only [Option.some.injEq] at hy; subst hy
    rw [R.rename]; exact h.upEx l x hl hx
  · intro _ _ h'; cases h'
  · intro _ h'; cases h'
  · intro _ h'; cases h'
  · exact h.noIC
  · intro w hw; simp only [n1] at hw; cases hw
  · intro w hw; simp only [n2] at hw; cases hw
  · intro w hw; simp only [n3] at hw; cases hw
  · exact h.maxIC

theorem core_renameLower {R : Reading E M} {e : Expr} {s : RecState} (h : Core R e s) {x : Expr}
    (hx : s.lower = some x) (hi : s.ics = []) : Core R e { s with lower := some (E.rename x) } := by
  obtain ⟨n1, n2, n3⟩ := h.noIC hi
  constructor
  · exact h.cl
  · exact h.rhs
  · exact h.info
  · exact h.exact
  · intro y hy; simp only [Option.some.injEq] at hy; subst hy
    exact (h.lower x hx).congr (R.rename x)
  · exact h.upper
  · intro l y hl hy; simp only [Option.some.injEq] at hl; subst hl
    rw [R.rename]; exact h.lowEx x y hx hy
  · exact h.upEx
  · intro a a' b; have := (h.only a a' b).1; rw [hx] at this; cases this
  · intro a b y hy; simp only [Option.some.injEq] at hy; subst hy
    obtain ⟨c, hc, hd⟩ := h.lowB a b x hx
    exact ⟨c, hc, (R.rename x).trans hd⟩
  · exact h.upB
  · exact h.noIC
  · exact h.evE
  · intro w hw; simp only [n2] at hw; cases hw
  · exact h.evU
  · exact h.maxIC

theorem core_renameUpper {R : Reading E M} {e : Expr} {s : RecState} (h : Core R e s) {x : Expr}
    (hx : s.upper = some x) (hi : s.ics = []) : Core R e { s with upper := some (E.rename x) } := by
  obtain ⟨n1, n2, n3⟩ := h.noIC hi
  constructor
  · exact h.cl
  · exact h.rhs
  · exact h.info
  · exact h.exact
  · exact h.lower
  · intro y hy; simp only [Option.some.injEq] at hy; subst hy
    exact (h.upper x hx).congr (R.rename x)
  · exact h.lowEx
  · intro l y hl hy; simp only [Option.some.injEq] at hl; subst hl
    rw [R.rename]; exact h.upEx x y hx hy
  · intro a a' b; have := (h.only a a' b).2; rw [hx] at this; cases this
  · exact h.lowB
  · intro a b y hy; simp only [Option.some.injEq] at hy; subst hy
    obtain ⟨c, hc, hd⟩ := h.upB a b x hx
    exact ⟨c, hc, (R.rename x).trans hd⟩
  · exact h.noIC
  · exact h.evE
  · exact h.evL
  · intro w hw; simp only [n3] at hw; cases hw
  · exact h.maxIC

theorem core_setICs {R : Reading E M} {e : Expr} {s : RecState} (h : RecInv R e s) (m : ICMap) :
    RecInv R e (RecState.setICs E s m).1 := by
  unfold RecState.setICs
  have h1 : RecInv R e (if s.ics ≠ [] then s.resetICs else s) := by
    split_ifs with hi
    · rcases h with h | h
      · exact absurd h.2.2.2.2.2.2.2.2 hi
      · exact Or.inr (core_reset h)
    · exact h
  have h2 := classify_core h1
  have hi : ((if s.ics ≠ [] then s.resetICs else s).classify E).ics = [] := by
    rw [classify_ics]
    split_ifs with h'
    · rfl
    · exact not_not.1 h'
  generalize (if s.ics ≠ [] then s.resetICs else s).classify E = t at *
  unfold setICsClassified
  refine Or.inr ?_
  split_ifs
  · exact h2
  · obtain ⟨n1, n2, n3⟩ := h2.noIC hi
    cases hk : checkICs t.info m with
    | accepted =>
      constructor
      · exact h2.cl
      · exact h2.rhs
      · exact h2.info
      · exact h2.exact
      · exact h2.lower
      · exact h2.upper
      · exact h2.lowEx
      · exact h2.upEx
      · exact h2.only
      · exact h2.lowB
      · exact h2.upB
      · intro _; exact ⟨n1, n2, n3⟩
      · intro w hw; simp only [n1] at hw; cases hw
      · intro w hw; simp only [n2] at hw; cases hw
      · intro w hw; simp only [n3] at hw; cases hw
      · rintro (ht | ht) <;>
        · exfalso
          have ht' : t.info.ty = _ := ht
          unfold checkICs at hk; rw [ht'] at hk; cases hk
    | _ => exact h2

theorem getExact_none {s : RecState} (hx : s.exact = none) : getExact E s = (s, none) := by
  unfold getExact; rw [hx]

theorem getExact_some {s : RecState} {x : Expr} (hx : s.exact = some x) : getExact E s =
    if s.ics = [] then (setFirstSol { s with exact := some (E.rename x) }, some (E.rename x))
    else if s.evExact.isSome then (setFirstSol s, s.evExact)
    else (setFirstSol { s with
              evExact := some (E.rename (E.onIC s.rhs s.info s.ics x)),
              evLower := some (E.rename (E.onIC s.rhs s.info s.ics x)),
              evUpper := some (E.rename (E.onIC s.rhs s.info s.ics x)) },
      some (E.rename (E.onIC s.rhs s.info s.ics x))) := by
  unfold getExact; rw [hx]
  cases he : s.evExact <;> rfl

theorem getLower_none {s : RecState} (hx : s.lower = none) : getLower E s = (s, none) := by
  unfold getLower; rw [hx]

theorem getLower_some {s : RecState} {x : Expr} (hx : s.lower = some x) : getLower E s =
    if s.ics = [] then (setFirstSol { s with lower := some (E.rename x) }, some (E.rename x))
    else if s.evLower.isSome then (setFirstSol s, s.evLower)
    else (setFirstSol { s with evLower := some (E.rename (E.onIC s.rhs s.info s.ics x)) },
      some (E.rename (E.onIC s.rhs s.info s.ics x))) := by
  unfold getLower; rw [hx]
  cases he : s.evLower <;> rfl

theorem getUpper_none {s : RecState} (hx : s.upper = none) : getUpper E s = (s, none) := by
  unfold getUpper; rw [hx]

theorem getUpper_some {s : RecState} {x : Expr} (hx : s.upper = some x) : getUpper E s =
    if s.ics = [] then (setFirstSol { s with upper := some (E.rename x) }, some (E.rename x))
    else if s.evUpper.isSome then (setFirstSol s, s.evUpper)
    else (setFirstSol { s with evUpper := some (E.rename (E.onIC s.rhs s.info s.ics x)) },
      some (E.rename (E.onIC s.rhs s.info s.ics x))) := by
  unfold getUpper; rw [hx]
  cases he : s.evUpper <;> rfl

theorem step_inv {R : Reading E M} {e : Expr} {s : RecState} (h : RecInv R e s)
    (hf : BoundsDiffer R e) (op : RecOp) : RecInv R e (s.step E op) := by
  cases op with
  | setICs m => exact core_setICs h m
  | resetICs =>
    rcases h with h | h
    · refine Or.inl ?_
      obtain ⟨h1, h2, h3, h4, h5, -⟩ := h
      exact ⟨h1, h2, h3, h4, h5, rfl, rfl, rfl, rfl⟩
    · exact Or.inr (core_reset h)
  | computeExact => exact core_computeExact h hf
  | computeLower => exact core_computeLower h hf
  | computeUpper => exact core_computeUpper h hf
  | getExact =>
    show RecInv R e (RecState.getExact E s).1
    cases hx : s.exact with
    | none => rw [getExact_none hx]; exact h
    | some x =>
      rw [getExact_some hx]
      rcases h with h | h
      · rw [h.2.2.1] at hx; cases hx
      · refine Or.inr ?_
        by_cases hi : s.ics = []
        · rw [if_pos hi]; exact core_firstSol (core_renameExact h hx hi)
        · rw [if_neg hi]
          by_cases hv : s.evExact.isSome
          · rw [if_pos hv]; exact core_firstSol h
          · rw [if_neg hv]; exact core_firstSol (core_setEv h hx (R.rename _) hi)
  | getLower =>
    show RecInv R e (RecState.getLower E s).1
    cases hx : s.lower with
    | none => rw [getLower_none hx]; exact h
    | some x =>
      rw [getLower_some hx]
      rcases h with h | h
      · rw [h.2.2.2.1] at hx; cases hx
      · refine Or.inr ?_
        by_cases hi : s.ics = []
        · rw [if_pos hi]; exact core_firstSol (core_renameLower h hx hi)
        · rw [if_neg hi]
          by_cases hv : s.evLower.isSome
          · rw [if_pos hv]; exact core_firstSol h
          · rw [if_neg hv]; exact core_firstSol (core_setEvLower h hx (R.rename _) hi)
  | getUpper =>
    show RecInv R e (RecState.getUpper E s).1
    cases hx : s.upper with
    | none => rw [getUpper_none hx]; exact h
    | some x =>
      rw [getUpper_some hx]
      rcases h with h | h
      · rw [h.2.2.2.2.1] at hx; cases hx
      · refine Or.inr ?_
        by_cases hi : s.ics = []
        · rw [if_pos hi]; exact core_firstSol (core_renameUpper h hx hi)
        · rw [if_neg hi]
          by_cases hv : s.evUpper.isSome
          · rw [if_pos hv]; exact core_firstSol h
          · rw [if_neg hv]; exact core_firstSol (core_setEvUpper h hx (R.rename _) hi)

theorem reach_inv (R : Reading E M) {e : Expr} {s : RecState} (h : RecReach E e s)
    (hf : BoundsDiffer R e) : RecInv R e s := by
  induction h with
  | new => exact Or.inl ⟨rfl, rfl, rfl, rfl, rfl, rfl, rfl, rfl, rfl⟩
  | step op _ ih => exact step_inv ih hf op

/-! ## C43 -/

/-- What an answer must be: the symbolic expression if there are no initial conditions, its value
on the *current* initial conditions otherwise. -/
def RightAnswer (R : Reading E M) (e : Expr) (ics : ICMap) (v x : Expr) : Prop :=
  (ics = [] → R.m v = R.m x) ∧
  (ics ≠ [] → R.m v = R.m (E.onIC (E.classify e).2.2 (E.classify e).2.1 ics x))

/-- **C43 (partial: a functional equation must have two different bounds).** After any sequence of calls, an answer of
`exact_solution()` is the symbolic solution with the current initial conditions applied: never one
computed for earlier conditions. -/
theorem C43_exact_not_stale_partial (R : Reading E M) {e : Expr} {s : RecState} (h : RecReach E e s)
    (hf : BoundsDiffer R e) {v : Expr} (hv : (getExact E s).2 = some v) :
    ∃ x, IsSol R e x ∧ RightAnswer R e s.ics v x := by
  unfold getExact at hv
  cases hx : s.exact with
  | none => simp [hx] at hv
  | some x =>
    rcases reach_inv R h hf with h' | h'
    · rw [h'.2.2.1] at hx; cases hx
    · refine ⟨x, h'.exact x hx, ?_⟩
      unfold RightAnswer
      rw [← h'.rhs, ← h'.info]
      simp only [hx] at hv
      by_cases hi : s.ics = []
      · rw [if_pos hi] at hv
        simp only [Option.some.injEq] at hv; subst hv
        exact ⟨fun _ => R.rename x, fun h => absurd hi h⟩
      · rw [if_neg hi] at hv
        refine ⟨fun h => absurd h hi, fun _ => ?_⟩
        cases he : s.evExact with
        | none =>
          simp only [he, Option.some.injEq] at hv; subst hv; exact R.rename _
        | some w =>
          simp only [he, Option.some.injEq] at hv; subst hv
          obtain ⟨y, h1, h2⟩ := h'.evE w he
          rw [hx] at h1; cases h1; exact h2

/-- **C43 (partial)** for `lower_bound()`. -/
theorem C43_lower_not_stale_partial (R : Reading E M) {e : Expr} {s : RecState} (h : RecReach E e s)
    (hf : BoundsDiffer R e) {v : Expr} (hv : (getLower E s).2 = some v) :
    ∃ x, IsBound R e .lower x ∧ RightAnswer R e s.ics v x := by
  unfold getLower at hv
  cases hx : s.lower with
  | none => simp [hx] at hv
  | some x =>
    rcases reach_inv R h hf with h' | h'
    · rw [h'.2.2.2.1] at hx; cases hx
    · refine ⟨x, h'.lower x hx, ?_⟩
      unfold RightAnswer
      rw [← h'.rhs, ← h'.info]
      simp only [hx] at hv
      by_cases hi : s.ics = []
      · rw [if_pos hi] at hv
        simp only [Option.some.injEq] at hv; subst hv
        exact ⟨fun _ => R.rename x, fun h => absurd hi h⟩
      · rw [if_neg hi] at hv
        refine ⟨fun h => absurd h hi, fun _ => ?_⟩
        cases he : s.evLower with
        | none =>
          simp only [he, Option.some.injEq] at hv; subst hv; exact R.rename _
        | some w =>
          simp only [he, Option.some.injEq] at hv; subst hv
          obtain ⟨y, h1, h2⟩ := h'.evL w he
          rcases h1 with h1 | h1
          · rw [hx] at h1; cases h1; exact h2
          · rw [h2]; exact R.onIC _ _ _ _ _ (h'.lowEx x y hx h1).symm

/-- **C43 (partial)** for `upper_bound()`. -/
theorem C43_upper_not_stale_partial (R : Reading E M) {e : Expr} {s : RecState} (h : RecReach E e s)
    (hf : BoundsDiffer R e) {v : Expr} (hv : (getUpper E s).2 = some v) :
    ∃ x, IsBound R e .upper x ∧ RightAnswer R e s.ics v x := by
  unfold getUpper at hv
  cases hx : s.upper with
  | none => simp [hx] at hv
  | some x =>
    rcases reach_inv R h hf with h' | h'
    · rw [h'.2.2.2.2.1] at hx; cases hx
    · refine ⟨x, h'.upper x hx, ?_⟩
      unfold RightAnswer
      rw [← h'.rhs, ← h'.info]
      simp only [hx] at hv
      by_cases hi : s.ics = []
      · rw [if_pos hi] at hv
        simp only [Option.some.injEq] at hv; subst hv
        exact ⟨fun _ => R.rename x, fun h => absurd hi h⟩
      · rw [if_neg hi] at hv
        refine ⟨fun h => absurd h hi, fun _ => ?_⟩
        cases he : s.evUpper with
        | none =>
          simp only [he, Option.some.injEq] at hv; subst hv; exact R.rename _
        | some w =>
          simp only [he, Option.some.injEq] at hv; subst hv
          obtain ⟨y, h1, h2⟩ := h'.evU w he
          rcases h1 with h1 | h1
          · rw [hx] at h1; cases h1; exact h2
          · rw [h2]; exact R.onIC _ _ _ _ _ (h'.upEx x y hx h1).symm

end Purrs
