import Verif.Model.Bool3

/-!
# C01: three-valued answers never lie

Specification.  A three-valued answer about a family of situations records in
which situations a proposition holds: `always` = in all of them, `never` = in
none, `maybe` = no information.  `Describes a P` says that the answer `a` is a
true statement on the family `P : ι → Prop`.
-/

namespace Purrs
open Bool3

/-- Specification: `a` is a correct thing to say about the family `P`. -/
def Describes {ι : Type} (a : Bool3) (P : ι → Prop) : Prop :=
  match a with
  | .always => ∀ i, P i
  | .never => ∀ i, ¬ P i
  | .maybe => True

/-- Specification: `r` is one of the classical truth values that `a` allows. -/
def Resolves (a : Bool3) (r : Bool) : Prop :=
  match a with
  | .always => r = true
  | .never => r = false
  | .maybe => True

variable {ι : Type}

/-- Soundness of `||` over any family of situations. -/
theorem C01_lor_sound (P Q : ι → Prop) (a b : Bool3)
    (ha : Describes a P) (hb : Describes b Q) :
    Describes (lor a b) (fun i => P i ∨ Q i) := by
  cases a <;> cases b <;> simp_all [Describes, lor]

/-- Soundness of `&&` over any family of situations. -/
theorem C01_land_sound (P Q : ι → Prop) (a b : Bool3)
    (ha : Describes a P) (hb : Describes b Q) :
    Describes (land a b) (fun i => P i ∧ Q i) := by
  cases a <;> cases b <;> simp_all [Describes, land]

/-- Soundness of `!` over any family of situations. -/
theorem C01_lnot_sound (P : ι → Prop) (a : Bool3) (ha : Describes a P) :
    Describes (lnot a) (fun i => ¬ P i) := by
  cases a <;> simp_all [Describes, lnot]

/-- Precision of `||`: the definite answers are exactly those forced by every
resolution of the operands (so `maybe` is only answered when two resolutions
disagree). -/
theorem C01_lor_exact (a b : Bool3) (r : Bool) :
    Resolves (lor a b) r ↔ ∃ p q, Resolves a p ∧ Resolves b q ∧ (p || q) = r := by
  cases a <;> cases b <;> cases r <;> simp [Resolves, lor]

/-- Precision of `&&`. -/
theorem C01_land_exact (a b : Bool3) (r : Bool) :
    Resolves (land a b) r ↔ ∃ p q, Resolves a p ∧ Resolves b q ∧ (p && q) = r := by
  cases a <;> cases b <;> cases r <;> simp [Resolves, land]

/-- Precision of `!`. -/
theorem C01_lnot_exact (a : Bool3) (r : Bool) :
    Resolves (lnot a) r ↔ ∃ p, Resolves a p ∧ (!p) = r := by
  cases a <;> cases r <;> simp [Resolves, lnot]

/-- `stronger_eq a b` exactly when everything `a` allows is allowed by `b`:
an answer is at least as strong iff it carries at least the information. -/
theorem C01_strongerEq_exact (a b : Bool3) :
    strongerEq a b = true ↔ ∀ r, Resolves a r → Resolves b r := by
  cases a <;> cases b <;> simp [Resolves, strongerEq]

/-- `stronger a b` exactly when `a` carries strictly more information. -/
theorem C01_stronger_exact (a b : Bool3) :
    stronger a b = true ↔
      (∀ r, Resolves a r → Resolves b r) ∧ ¬ (∀ r, Resolves b r → Resolves a r) := by
  cases a <;> cases b <;> simp [Resolves, stronger]

/-- `is_strong a` exactly when `a` determines the classical truth value. -/
theorem C01_isStrong_exact (a : Bool3) :
    isStrong a = true ↔ ∃ r, ∀ s, Resolves a s ↔ s = r := by
  cases a <;> simp [Resolves, isStrong]

/-- Non-vacuity: over the integers, "non-negative square" is `always` and a
definite conclusion is drawn from it although the other operand is unknown. -/
example : Describes (lor .always .maybe) (fun i : Int => 0 ≤ i * i ∨ i = 3) := by
  apply C01_lor_sound
  · intro i
    by_cases h : 0 ≤ i
    · exact Int.mul_nonneg h h
    · exact Int.mul_nonneg_of_nonpos_of_nonpos (by omega) (by omega)
  · trivial

end Purrs
