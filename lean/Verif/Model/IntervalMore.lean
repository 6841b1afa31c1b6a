import Verif.Model.Interval
import Mathlib.Analysis.SpecialFunctions.Pow.Real
import Mathlib.Analysis.SpecialFunctions.Trigonometric.Basic

/-!
# Intervals, continued: products, quotients, elementary functions, widening (src/Intervals/Interval.cc,
Interval.inlines.hh, Boundary.inlines.hh)

The same simplifications as in `Verif.Model.Interval`: exact arithmetic on extended reals (the macros `COMPUTE_*` without
`USE_DIRECTED_ROUNDING`, which no file of the build defines, are the plain operations), `IEEE_NUMBERS` is 0.  Boundaries
that are zero are `+0.0`.
-/

namespace Purrs.Interval

noncomputable section

open Classical

/-- Interval.cc 427-521, `operator *= (Interval)`.  The rows of the table in the comment of the code, in the order of the tests. -/
def mul (x y : Iv) : Iv :=
  if y.onePoint then mulV x y.lo.v
  else
    let z : Iv :=
      if ltV y 0 then
        if ltV x 0 then ⟨lmul (lset x.up) y.up, umul (uset x.lo) y.lo, x.int⟩
        else if gtV x 0 then ⟨lmul (lset x.up) y.lo, umul (uset x.lo) y.up, x.int⟩
        else ⟨lmul (lset x.up) y.lo, umul (uset x.lo) y.lo, x.int⟩
      else if gtV y 0 then
        if ltV x 0 then ⟨lmul x.lo y.up, umul x.up y.lo, x.int⟩
        else if gtV x 0 then ⟨lmul x.lo y.lo, umul x.up y.up, x.int⟩
        else ⟨lmul x.lo y.up, umul x.up y.up, x.int⟩
      else
        if ltV x 0 then ⟨lmul x.lo y.up, umul (uset x.lo) y.lo, x.int⟩
        else if gtV x 0 then ⟨lmul (lset x.up) y.lo, umul x.up y.up, x.int⟩
        else
          let ub := umul (uset x.lo) y.lo
          let lb := lmul y.lo x.up
          let l := lmul x.lo y.up
          let u := umul x.up y.up
          ⟨if lb.lt l then lb else l, if ub.gt u then ub else u, x.int⟩
    if x.int = false ∨ y.int = false then z.setMaybeReal else z.setInteger

/-- The quotient of two `double`s, the first of which is not zero, the second possibly `+0.0` or an infinity. -/
def quo (a b : EReal) : EReal := if b = 0 then (if 0 < a then ⊤ else ⊥) else a / b

/-- Boundary.inlines.hh 688-693 and 759-764, `/= Value` (same text for both kinds). -/
def Bd.divV (b : Bd) (x : EReal) : Bd := if b.v ≠ 0 then ⟨quo b.v x, b.f⟩ else b
/-- Boundary.inlines.hh 695-703, `LBoundary /= Boundary`. -/
def ldiv (b x : Bd) : Bd :=
  if b.v ≠ 0 then ⟨quo b.v x.v, if b.closed then (if x.closed then 0 else 1) else b.f⟩ else b
/-- Boundary.inlines.hh 766-774, `UBoundary /= Boundary`. -/
def udiv (b x : Bd) : Bd :=
  if b.v ≠ 0 then ⟨quo b.v x.v, if b.closed then (if x.closed then 0 else -1) else b.f⟩ else b

/-- `fabs(frexp(y, &exp)) == 0.5f` with `-1 <= y <= 1` (Interval.inlines.hh 652-653): a power of two with a non-positive exponent, up
to the sign. -/
def unitFraction (y : EReal) : Prop := ∃ k : ℕ, y = (((1 / 2 : ℝ) ^ k : ℝ) : EReal) ∨ y = ((-((1 / 2 : ℝ) ^ k) : ℝ) : EReal)

/-- Interval.inlines.hh 637-659, `operator /= (Value)`. -/
def divV (x : Iv) (y : EReal) : Iv :=
  if y = 0 then Iv.empty
  else
    let s : Iv := if y < 0 then ⟨lset x.up, uset x.lo, x.int⟩ else x
    let z : Iv := ⟨s.lo.divV y, s.up.divV y, x.int⟩
    if x.int = true ∧ unitFraction y then z.setInteger else z.setMaybeReal

/-- Interval.cc 560-628, the branch of `operator /=` for a divisor of type INTEGER that contains 0. -/
def divIntZero (x y : Iv) : Iv :=
  let z : Iv :=
    if leV y 0 then
      if ltV x 0 then ⟨ldiv (lset x.up) y.lo, (uset x.lo).neg, x.int⟩
      else if gtV x 0 then ⟨(lset x.up).neg, udiv (uset x.lo) y.lo, x.int⟩
      else ⟨(lset x.up).neg, (uset x.lo).neg, x.int⟩
    else if geV y 0 then
      if ltV x 0 then ⟨x.lo, udiv x.up y.up, x.int⟩
      else if gtV x 0 then ⟨ldiv x.lo y.up, x.up, x.int⟩
      else x
    else
      if ltV x 0 then ⟨x.lo, udiv x.up y.up, x.int⟩
      else if gtV x 0 then ⟨ldiv x.lo y.up, x.up, x.int⟩
      else
        let ub := (uset x.lo).neg
        let lb := (lset x.up).neg
        ⟨if lb.lt x.lo then lb else x.lo, if ub.gt x.up then ub else x.up, x.int⟩
  z.setMaybeReal

/-- Interval.cc 633-680, the branch of `operator /=` for a divisor without 0. -/
def divNonzero (x y : Iv) : Iv :=
  let z : Iv :=
    if ltV y 0 then
      if ltV x 0 then ⟨ldiv (lset x.up) y.lo, udiv (uset x.lo) y.up, x.int⟩
      else if gtV x 0 then ⟨ldiv (lset x.up) y.up, udiv (uset x.lo) y.lo, x.int⟩
      else ⟨ldiv (lset x.up) y.up, udiv (uset x.lo) y.up, x.int⟩
    else
      if ltV x 0 then ⟨ldiv x.lo y.lo, udiv x.up y.up, x.int⟩
      else if gtV x 0 then ⟨ldiv x.lo y.up, udiv x.up y.lo, x.int⟩
      else ⟨ldiv x.lo y.lo, udiv x.up y.lo, x.int⟩
  z.setMaybeReal

/-- Interval.cc 549-682, `operator /= (Interval)`. -/
def div (x y : Iv) : Iv :=
  if y.onePoint then divV x y.lo.v
  else if hasV y 0 then (if y.int = true then divIntZero x y else Iv.full false)
  else divNonzero x y

/-- Interval.inlines.hh 861-868, `div_assign`: the integer quotient. -/
def idiv (x y : Iv) : Iv := intA (div x y)
/-- Interval.inlines.hh 870-880, `mod_assign`. -/
def imod (x y : Iv) : Iv := sub x (mul (idiv x y) y)

/-- `sqrt` of the C library. -/
def sqrtE : EReal → EReal
  | ⊥ => ⊥
  | ⊤ => ⊤
  | (r : ℝ) => ((Real.sqrt r : ℝ) : EReal)
/-- `exp`. -/
def expE : EReal → EReal
  | ⊥ => 0
  | ⊤ => ⊤
  | (r : ℝ) => ((Real.exp r : ℝ) : EReal)
/-- `log` on the numbers that are not negative: `-HUGE_VAL` at 0. -/
def logE : EReal → EReal
  | ⊥ => ⊥
  | ⊤ => ⊤
  | (r : ℝ) => if r = 0 then ⊥ else ((Real.log r : ℝ) : EReal)

/-- Boundary.inlines.hh 777-793 and 813-829: `exp_assign`, `log_assign`, `sqrt_assign`; the flag stays. -/
def Bd.app (f : EReal → EReal) (b : Bd) : Bd := ⟨f b.v, b.f⟩

/-- Interval.inlines.hh 773-790, `sqrt_assign`. -/
def sqrtA (x : Iv) : Iv :=
  if ltV x 0 then Iv.empty
  else Iv.setMaybeReal ⟨if gtV x 0 then x.lo.app sqrtE else ⟨0, 0⟩, x.up.app sqrtE, x.int⟩

/-- Interval.inlines.hh 792-802, `exp_assign`. -/
def expA (x : Iv) : Iv := Iv.setMaybeReal ⟨x.lo.app expE, x.up.app expE, x.int⟩

/-- Interval.inlines.hh 804-829, `log_assign` (the branch without IEEE_NUMBERS). -/
def logA (x : Iv) : Iv :=
  if leV x 0 then Iv.empty
  else Iv.setMaybeReal ⟨if ¬ gtV x 0 then Bd.min else x.lo.app logE, x.up.app logE, x.int⟩

/-- `pow(a, y)` of the C library for the arguments that occur: `a` not 0 or 1, `y` not 0.  For an infinite base the exponent is a
number; `-∞` occurs with odd integers only. -/
def powE : EReal → EReal → EReal
  | (a : ℝ), (y : ℝ) => ((a ^ y : ℝ) : EReal)
  | (a : ℝ), ⊤ => if 1 < |a| then ⊤ else 0
  | (a : ℝ), ⊥ => if 1 < |a| then 0 else ⊤
  | ⊤, y => if 0 < y then ⊤ else 0
  | ⊥, y => if 0 < y then ⊥ else 0

/-- Boundary.inlines.hh 867-887, `LBoundary::pow_assign(Boundary)`. -/
def lpow (b x : Bd) : Bd :=
  if b.v = 0 then b
  else if x.v = 0 then ⟨1, if x.closed then 0 else b.f⟩
  else if b.v ≠ 1 then ⟨powE b.v x.v, if b.closed then (if x.closed then 0 else 1) else b.f⟩
  else b
/-- Boundary.inlines.hh 906-924, `UBoundary::pow_assign(Boundary)`. -/
def upow (b x : Bd) : Bd :=
  if x.v = 0 then ⟨1, if x.closed then 0 else b.f⟩
  else if b.v ≠ 0 ∧ b.v ≠ 1 then ⟨powE b.v x.v, if b.closed then (if x.closed then 0 else -1) else b.f⟩
  else b

/-- `fmod(v, 2.0) == 0.0`. -/
def isEven (v : EReal) : Prop := ∃ z : ℤ, v = ((2 * z : ℝ) : EReal)

/-- Interval.cc 728-750, `pow_assign` for an exponent that is one number. -/
def powPoint (x y : Iv) : Iv :=
  if isInt y.lo.v then
    let z := if isEven y.lo.v then abs x else x
    ⟨lpow z.lo y.lo, upow z.up y.lo, z.int⟩
  else
    let l : Bd := if x.lo.v < 0 then ⟨0, 0⟩ else x.lo
    if x.lo.v < 0 ∧ l.gt x.up then Iv.empty
    else
      let z : Iv := if y.lo.v < 0 then ⟨lset x.up, uset l, x.int⟩ else ⟨l, x.up, x.int⟩
      ⟨lpow z.lo y.lo, upow z.up y.lo, x.int⟩

/-- Interval.cc 715-778, `pow_assign`.  `y.is_integer()` (Interval.inlines.hh 47-50) is the flag, which for one number in normal form
says whether it is an integer. -/
def pow (x y : Iv) : Iv :=
  if hasV x 0 ∧ ¬ gtV y 0 then Iv.full false
  else if y.onePoint then powPoint x y
  else if ¬ geV x 0 then Iv.full false
  else if ¬ geV y 0 then Iv.full false
  else
    let z : Iv :=
      if gtV x 1 then ⟨lpow x.lo y.lo, upow x.up y.up, x.int⟩
      else if ltV x 1 then ⟨lpow x.lo y.up, upow x.up y.lo, x.int⟩
      else ⟨lpow x.lo y.up, upow x.up y.up, x.int⟩
    if x.int = false ∨ y.int = false ∨ ¬ geV y 0 then z.setMaybeReal else z.setInteger

/-- Interval.cc 35-53, `contains_multiple(offset, period)`; `BOUNDARY_MAX_FRACT` as in `Verif.Model.Interval`. -/
def hasMultiple (x : Iv) (off per : ℝ) : Prop :=
  let lb := (x.lo.addV (-off : ℝ)).divV per
  if lb.closed = true ∧ isInt lb.v then True
  else (lfloor lb).v < (ufloor ((x.up.addV (-off : ℝ)).divV per)).v

/-- A function of the C library on boundaries; it is applied to finite values only. -/
def realE (f : ℝ → ℝ) : EReal → EReal
  | ⊥ => ⊥
  | ⊤ => ⊤
  | (r : ℝ) => ((f r : ℝ) : EReal)

/-- Interval.cc 781-830 and 832-881: `cos_assign` and `sin_assign` are the same text up to the function and the offsets of the minima
(`omin`) and maxima (`omax`); the branch without USE_DIRECTED_ROUNDING.  `M_PI` is the real number π. -/
def wave (f : ℝ → ℝ) (omin omax : ℝ) (x : Iv) : Iv :=
  let tomin := hasMultiple x omin (Real.pi * 2)
  let tomax := hasMultiple x omax (Real.pi * 2)
  if tomin ∧ tomax then Iv.setMaybeReal ⟨⟨((-1 : ℝ) : EReal), 0⟩, ⟨((1 : ℝ) : EReal), 0⟩, x.int⟩
  else
    let l := x.lo.app (realE f)
    let u := x.up.app (realE f)
    let l' := if l.gt u ∧ ¬ tomin then lset u else l
    let u' := if l.gt u ∧ ¬ tomax then uset l else u
    Iv.setMaybeReal ⟨if tomin then ⟨((-1 : ℝ) : EReal), 0⟩ else l', if tomax then ⟨((1 : ℝ) : EReal), 0⟩ else u', x.int⟩

/-- Interval.cc 781-830, `cos_assign`. -/
def cosA (x : Iv) : Iv := wave Real.cos Real.pi 0 x
/-- Interval.cc 832-881, `sin_assign`. -/
def sinA (x : Iv) : Iv := wave Real.sin (-(Real.pi / 2)) (Real.pi / 2) x
/-- Interval.cc 883-902, `tan_assign`. -/
def tanA (x : Iv) : Iv :=
  if hasMultiple x (Real.pi / 2) Real.pi then Iv.setMaybeReal (Iv.full false)
  else Iv.setMaybeReal ⟨x.lo.app (realE Real.tan), x.up.app (realE Real.tan), x.int⟩

/-- Interval.cc 356-367: the lower boundary; the stop points from the last to the first. -/
def widenLo (b : Bd) (int : Bool) : List ℝ → Bd
  | [] => Bd.min
  | p :: ps => if lGeV b p then (if b.gtV p then setGt b p int else b) else widenLo b int ps
/-- Interval.cc 369-380: the upper boundary; the stop points from the first to the last. -/
def widenUp (b : Bd) (int : Bool) : List ℝ → Bd
  | [] => Bd.max
  | p :: ps => if uLeV b p then (if b.ltV p then setLt b p int else b) else widenUp b int ps

/-- Interval.cc 345-382, `widen_assign(old)`. -/
def widen (x old : Iv) : Iv :=
  ⟨if x.lo.lt old.lo then widenLo x.lo x.int [1, 0, -1] else x.lo,
   if x.up.gt old.up then widenUp x.up x.int [-1, 0, 1] else x.up, x.int⟩

/-- Interval.cc 391-394: the change of the lower boundary from `o` to `b` crosses a stop point. -/
def crossesLo (o b : Bd) : Prop := o.v = ⊥ ∨ (o.leV (-1 : ℝ) ∧ lGeV b (-1 : ℝ)) ∨ (o.leV 0 ∧ lGeV b 0) ∨ (o.leV 1 ∧ lGeV b 1)
/-- Interval.cc 400-403. -/
def crossesUp (o b : Bd) : Prop := o.v = ⊤ ∨ (o.geV (-1 : ℝ) ∧ uLeV b (-1 : ℝ)) ∨ (o.geV 0 ∧ uLeV b 0) ∨ (o.geV 1 ∧ uLeV b 1)

/-- Interval.cc 383-412, `narrow_assign(old)`. -/
def narrow (x old : Iv) : Iv :=
  let l := if x.lo.gt old.lo ∧ crossesLo old.lo x.lo then x.lo else old.lo
  let u := if x.up.lt old.up ∧ crossesUp old.up x.up then x.up else old.up
  if l.gt u then Iv.empty else ⟨l, u, x.int⟩

/-- Interval.inlines.hh 372-381, `lcompare`. -/
def lcompare (x y : Iv) : Int :=
  if x.lo.lt y.lo then -1 else if y.lo.lt x.lo then 1 else if x.up.lt y.up then -1 else if y.up.lt x.up then 1 else 0

end

end Purrs.Interval
