import Mathlib.Data.EReal.Operations
import Mathlib.Algebra.Order.Floor.Ring
import Verif.Model.Bool3

/-!
# Intervals (src/Intervals/Boundary.inlines.hh, Interval.inlines.hh, Interval.cc)

A boundary is a value (a `double`, or an infinity) and a flag `NEG = -1`, `ZERO = 0`,
`POS = 1` that says on which side of the value the boundary sits: a closed boundary has flag
`ZERO`, an open lower one `POS`, an open upper one `NEG`.

Simplifications: the value is an extended real and the arithmetic on it is exact (the directed
rounding of `COMPUTE_ADD` etc. is not modelled); hence the tests against `BOUNDARY_MAX_FRACT`, beyond
which every `double` is an integer, are replaced by the test that the value is finite, except in
`setGt` and `setLt` where the constants matter.  `IEEE_NUMBERS` is taken to be 0, as in the
configured build.
-/

namespace Purrs.Interval

noncomputable section

open Classical

/-- src/Intervals/Boundary.defs.hh 60-120, `Boundary { value, flag }`; `flag` is one of
-1 (NEG), 0 (ZERO), 1 (POS). -/
@[ext] structure Bd where
  v : EReal
  f : Int

/-- Boundary.inlines.hh 179-188, `set_min` (the branch without IEEE_NUMBERS). -/
def Bd.min : Bd := ⟨⊥, 1⟩
/-- Boundary.inlines.hh 190-199, `set_max`. -/
def Bd.max : Bd := ⟨⊤, -1⟩

/-- Boundary.inlines.hh 254-260: `LBoundary(value, CLOSED or OPEN)`. -/
def lbd (v : EReal) (closed : Bool) : Bd := ⟨v, if closed then 0 else 1⟩
/-- Boundary.inlines.hh 364-371: `UBoundary(value, CLOSED or OPEN)`. -/
def ubd (v : EReal) (closed : Bool) : Bd := ⟨v, if closed then 0 else -1⟩

/-- Boundary.inlines.hh 235-239, `is_closed`. -/
def Bd.closed (b : Bd) : Bool := b.f == 0

/-- Boundary.inlines.hh 223-233, `is_integer`: finite and equal to its floor. -/
def isInt (v : EReal) : Prop := ∃ z : ℤ, v = ((z : ℝ) : EReal)

/-- Boundary.inlines.hh 211-215, `my_floor`: infinities stay. -/
def flo : EReal → EReal
  | ⊥ => ⊥
  | ⊤ => ⊤
  | (r : ℝ) => ((⌊r⌋ : ℝ) : EReal)

/-- Boundary.inlines.hh 217-221, `my_ceil`. -/
def cei : EReal → EReal
  | ⊥ => ⊥
  | ⊤ => ⊤
  | (r : ℝ) => ((⌈r⌉ : ℝ) : EReal)

/-- Boundary.inlines.hh 477-482, `operator<(Boundary, Boundary)`. -/
def Bd.lt (x y : Bd) : Prop := x.v < y.v ∨ (x.v = y.v ∧ x.f < y.f)
/-- Boundary.inlines.hh 490-495, `operator>`. -/
def Bd.gt (x y : Bd) : Prop := x.v > y.v ∨ (x.v = y.v ∧ x.f > y.f)
/-- Boundary.inlines.hh 503-507, `operator<=`. -/
def Bd.le (x y : Bd) : Prop := ¬ x.gt y
/-- Boundary.inlines.hh 515-519, `operator>=`. -/
def Bd.ge (x y : Bd) : Prop := ¬ x.lt y
/-- Boundary.inlines.hh 497-501 and 509-513, `operator<=(UBoundary, LBoundary)`, the version
specialised to an upper boundary against a lower one: values only. -/
def ulLe (x y : Bd) : Prop := ¬ x.v > y.v
/-- Boundary.inlines.hh 539-544, `operator<(Boundary, Value)`. -/
def Bd.ltV (x : Bd) (y : EReal) : Prop := x.v < y ∨ (x.v = y ∧ x.f < 0)
/-- Boundary.inlines.hh 552-557, `operator>(Boundary, Value)`. -/
def Bd.gtV (x : Bd) (y : EReal) : Prop := x.v > y ∨ (x.v = y ∧ x.f > 0)
/-- Boundary.inlines.hh 565-569, `operator<=(Boundary, Value)`. -/
def Bd.leV (x : Bd) (y : EReal) : Prop := ¬ x.gtV y
/-- Boundary.inlines.hh 577-581, `operator>=(Boundary, Value)`. -/
def Bd.geV (x : Bd) (y : EReal) : Prop := ¬ x.ltV y
/-- Boundary.inlines.hh 571-575, `operator<=(UBoundary, Value)`: value only. -/
def uLeV (x : Bd) (y : EReal) : Prop := ¬ x.v > y
/-- Boundary.inlines.hh 583-587, `operator>=(LBoundary, Value)`: value only. -/
def lGeV (x : Bd) (y : EReal) : Prop := ¬ x.v < y

/-- Boundary.inlines.hh 293-306, `LBoundary::ceil_assign`. -/
def lceil (b : Bd) : Bd :=
  match b.v with
  | ⊥ => b
  | ⊤ => b
  | (r : ℝ) => if b.closed then ⟨cei r, b.f⟩ else ⟨((⌊r⌋ + 1 : ℝ) : EReal), 0⟩

/-- Boundary.inlines.hh 308-316, `LBoundary::floor_assign`. -/
def lfloor (b : Bd) : Bd := if b.v = ⊥ then b else ⟨flo b.v, 0⟩

/-- Boundary.inlines.hh 398-411, `UBoundary::floor_assign`. -/
def ufloor (b : Bd) : Bd :=
  match b.v with
  | ⊥ => b
  | ⊤ => b
  | (r : ℝ) => if b.closed then ⟨flo r, b.f⟩ else ⟨((⌈r⌉ - 1 : ℝ) : EReal), 0⟩

/-- Boundary.inlines.hh 599-607, `UBoundary::ceil_assign`. -/
def uceil (b : Bd) : Bd := if b.v = ⊤ then b else ⟨cei b.v, 0⟩

/-- Boundary.inlines.hh 318-323, `LBoundary::set(UBoundary)`. -/
def lset (b : Bd) : Bd := lbd b.v b.closed
/-- Boundary.inlines.hh 413-418, `UBoundary::set(LBoundary)`. -/
def uset (b : Bd) : Bd := ubd b.v b.closed
/-- Boundary.inlines.hh 619-631, `negate`. -/
def Bd.neg (b : Bd) : Bd := ⟨-b.v, b.f⟩

/-- Boundary.inlines.hh 589-597, `LBoundary::integer_assign`. -/
def lint (b : Bd) : Bd := if lGeV b 0 then lfloor b else lceil b
/-- Boundary.inlines.hh 609-617, `UBoundary::integer_assign`. -/
def uint (b : Bd) : Bd := if b.v > 0 then ufloor b else uceil b

/-- Boundary.inlines.hh 633-638, `LBoundary += Value`; 648-652 and the `UBoundary` versions
705-709, 719-723 are the same up to sign: the flag stays. -/
def Bd.addV (b : Bd) (x : EReal) : Bd := ⟨b.v + x, b.f⟩
/-- Boundary.inlines.hh 640-646, `LBoundary += Boundary`. -/
def ladd (b x : Bd) : Bd := ⟨b.v + x.v, if b.closed then (if x.closed then 0 else 1) else b.f⟩
/-- Boundary.inlines.hh 711-717, `UBoundary += Boundary`. -/
def uadd (b x : Bd) : Bd := ⟨b.v + x.v, if b.closed then (if x.closed then 0 else -1) else b.f⟩
/-- Boundary.inlines.hh 654-660, `LBoundary -= Boundary`. -/
def lsub (b x : Bd) : Bd := ⟨b.v - x.v, if b.closed then (if x.closed then 0 else 1) else b.f⟩
/-- Boundary.inlines.hh 725-731, `UBoundary -= Boundary`. -/
def usub (b x : Bd) : Bd := ⟨b.v - x.v, if b.closed then (if x.closed then 0 else -1) else b.f⟩
/-- Boundary.inlines.hh 662-671 and 733-742, `*= Value` (same text for both kinds). -/
def Bd.mulV (b : Bd) (x : EReal) : Bd :=
  if x = 0 then ⟨0, 0⟩ else if b.v ≠ 0 then ⟨b.v * x, b.f⟩ else b
/-- Boundary.inlines.hh 673-686, `LBoundary *= Boundary`. -/
def lmul (b x : Bd) : Bd :=
  if x.v = 0 then ⟨0, if x.closed then 0 else b.f⟩
  else if b.v ≠ 0 then ⟨b.v * x.v, if b.closed then (if x.closed then 0 else 1) else b.f⟩ else b
/-- Boundary.inlines.hh 744-757, `UBoundary *= Boundary`. -/
def umul (b x : Bd) : Bd :=
  if x.v = 0 then ⟨0, if x.closed then 0 else b.f⟩
  else if b.v ≠ 0 then ⟨b.v * x.v, if b.closed then (if x.closed then 0 else -1) else b.f⟩ else b

/-- sysdep constants `MAX_ODD_D` (2^53-1) and `MAX_FRACT_D` (2^52 - 1/2), used by
Boundary.inlines.hh 341-356 and 436-451. -/
def maxOdd : EReal := ((9007199254740991 : ℝ) : EReal)
/-- See `maxOdd`. -/
def maxFract : EReal := (((9007199254740991 : ℝ) / 2 : ℝ) : EReal)

/-- Boundary.inlines.hh 339-356, `LBoundary::set_gt(b, integer)`; `old` is the boundary's former
content, which the code tests where it should test `b`. -/
def setGt (old : Bd) (b : EReal) (integer : Bool) : Bd :=
  if integer = true ∧ b ≠ ⊥ then
    if old.v < -maxOdd - 1 ∨ old.v > maxOdd then old
    else if old.v = maxFract then ⟨cei old.v, 0⟩
    else ⟨flo (b + 1), 0⟩
  else ⟨b, 1⟩

/-- Boundary.inlines.hh 434-451, `UBoundary::set_lt(b, integer)`. -/
def setLt (old : Bd) (b : EReal) (integer : Bool) : Bd :=
  if integer = true ∧ b ≠ ⊤ then
    if old.v < -maxOdd ∨ old.v > maxOdd + 1 then old
    else if old.v = -maxFract then ⟨flo old.v, 0⟩
    else ⟨cei (b - 1), 0⟩
  else ⟨b, -1⟩

/-- Interval.defs.hh, `Interval { lower, upper, flag }`; `int` says whether the flag is INTEGER. -/
@[ext] structure Iv where
  lo : Bd
  up : Bd
  int : Bool

/-- Interval.inlines.hh 33-39, `set_empty`. -/
def Iv.empty : Iv := ⟨Bd.max, Bd.min, true⟩
/-- Interval.inlines.hh 41-45, `is_empty`. -/
def Iv.isEmpty (x : Iv) : Prop := x.lo.gt x.up
/-- Interval.inlines.hh 74-80, `set_full`. -/
def Iv.full (t : Bool) : Iv := ⟨Bd.min, Bd.max, t⟩
/-- Interval.inlines.hh 91-95, `is_one_point`. -/
def Iv.onePoint (x : Iv) : Prop := x.lo = x.up
/-- Interval.inlines.hh 97-102, `set_maybe_real`. -/
def Iv.setMaybeReal (x : Iv) : Iv := ⟨x.lo, x.up, decide (x.onePoint ∧ isInt x.lo.v)⟩
/-- Interval.inlines.hh 104-112, `set_integer`. -/
def Iv.setInteger (x : Iv) : Iv :=
  if (lceil x.lo).gt (ufloor x.up) then Iv.empty else ⟨lceil x.lo, ufloor x.up, true⟩
/-- Interval.inlines.hh 119-126, the interval of one value. -/
def Iv.point (v : EReal) : Iv := ⟨lbd v true, ubd v true, decide (isInt v)⟩
/-- Interval.inlines.hh 168-178, the complete constructor. -/
def Iv.mk' (l u : Bd) (t : Bool) : Iv :=
  if t then Iv.setInteger ⟨l, u, t⟩ else Iv.setMaybeReal ⟨l, u, t⟩

/-- Interval.inlines.hh 208-220, `subset` (strict inclusion). -/
def subset (x y : Iv) : Prop :=
  if x.int = false then
    if y.int = true then False
    else (x.up.lt y.up ∧ x.lo.ge y.lo) ∨ (x.up.le y.up ∧ x.lo.gt y.lo)
  else if y.int = false then x.up.le y.up ∧ x.lo.ge y.lo
  else (x.up.lt y.up ∧ x.lo.ge y.lo) ∨ (x.up.le y.up ∧ x.lo.gt y.lo)

/-- Interval.inlines.hh 228-237, `subset_eq`. -/
def subsetEq (x y : Iv) : Prop :=
  if x.int = false ∧ y.int = true then False else x.up.le y.up ∧ x.lo.ge y.lo

/-- Interval.inlines.hh 245-250, `operator==`. -/
def eqIv (x y : Iv) : Prop := x.lo = y.lo ∧ x.up = y.up ∧ x.int = y.int

/-- Interval.inlines.hh 260-266, `lt`. -/
def lt (x y : Iv) : Prop := x.up.lt y.lo
/-- Interval.inlines.hh 268-272, `gt`. -/
def gt (x y : Iv) : Prop := lt y x
/-- Interval.inlines.hh 274-279, `le`. -/
def le (x y : Iv) : Prop := ulLe x.up y.lo
/-- Interval.inlines.hh 281-285, `ge`. -/
def ge (x y : Iv) : Prop := le y x
/-- Interval.inlines.hh 287-291, `eq`. -/
def eq (x y : Iv) : Prop := le x y ∧ ge x y
/-- Interval.inlines.hh 293-297, `ne`. -/
def ne (x y : Iv) : Prop := lt x y ∨ gt x y

/-- Interval.inlines.hh 299-340, the versions against one value. -/
def ltV (x : Iv) (y : EReal) : Prop := x.up.ltV y
/-- Interval.inlines.hh 307-312. -/
def gtV (x : Iv) (y : EReal) : Prop := x.lo.gtV y
/-- Interval.inlines.hh 314-319. -/
def leV (x : Iv) (y : EReal) : Prop := uLeV x.up y
/-- Interval.inlines.hh 321-326. -/
def geV (x : Iv) (y : EReal) : Prop := lGeV x.lo y

/-- Interval.inlines.hh 383-413: each three-valued predicate is `p ? ALWAYS : q ? NEVER : MAYBE`. -/
def tri (p q : Prop) : Bool3 := if p then .always else if q then .never else .maybe
/-- Interval.inlines.hh 384-388. -/
def lt3 (x y : Iv) : Bool3 := tri (lt x y) (ge x y)
/-- Interval.inlines.hh 389-393. -/
def gt3 (x y : Iv) : Bool3 := tri (gt x y) (le x y)
/-- Interval.inlines.hh 394-398. -/
def le3 (x y : Iv) : Bool3 := tri (le x y) (gt x y)
/-- Interval.inlines.hh 399-403. -/
def ge3 (x y : Iv) : Bool3 := tri (ge x y) (lt x y)
/-- Interval.inlines.hh 404-408. -/
def eq3 (x y : Iv) : Bool3 := tri (eq x y) (ne x y)
/-- Interval.inlines.hh 409-413. -/
def ne3 (x y : Iv) : Bool3 := tri (ne x y) (eq x y)

/-- Interval.inlines.hh 492-508, `operator &=`. -/
def inter (x y : Iv) : Iv :=
  let l := if y.lo.gt x.lo then y.lo else x.lo
  let u := if y.up.lt x.up then y.up else x.up
  if x.int = false ∧ y.int = false then
    if l.gt u then Iv.empty else Iv.setMaybeReal ⟨l, u, x.int⟩
  else Iv.setInteger ⟨l, u, x.int⟩

/-- Interval.inlines.hh 510-516, `operator &&(Interval, Interval)`. -/
def meets (x y : Iv) : Prop := ¬ (inter x y).isEmpty

/-- Interval.inlines.hh 518-524, `operator &&(Interval, Value)`. -/
def hasV (x : Iv) (y : EReal) : Prop :=
  x.lo.leV y ∧ x.up.geV y ∧ (x.int = false ∨ isInt y)

/-- Interval.inlines.hh 526-538, `operator |=`. -/
def join (x y : Iv) : Iv :=
  ⟨if y.lo.lt x.lo then y.lo else x.lo, if y.up.gt x.up then y.up else x.up,
   if y.int = false then false else x.int⟩

/-- Interval.inlines.hh 540-551, `operator += (Value)`. -/
def addV (x : Iv) (y : EReal) : Iv :=
  let z : Iv := ⟨x.lo.addV y, x.up.addV y, x.int⟩
  if x.int = false ∨ ¬ isInt y then z.setMaybeReal else z.setInteger

/-- Interval.inlines.hh 566-590, `operator += (Interval)`. -/
def add (x y : Iv) : Iv :=
  if y.onePoint then addV x y.lo.v
  else
    let z : Iv := ⟨ladd x.lo y.lo, uadd x.up y.up, x.int⟩
    if x.int = false ∨ y.int = false then z.setMaybeReal else z.setInteger

/-- Interval.inlines.hh 553-564, `operator -= (Value)`. -/
def subV (x : Iv) (y : EReal) : Iv := addV x (-y)

/-- Interval.inlines.hh 592-617, `operator -= (Interval)`. -/
def sub (x y : Iv) : Iv :=
  if y.onePoint then subV x y.lo.v
  else
    let z : Iv := ⟨lsub x.lo y.up, usub x.up y.lo, x.int⟩
    if x.int = false ∨ y.int = false then z.setMaybeReal else z.setInteger

/-- Interval.inlines.hh 619-635, `operator *= (Value)`. -/
def mulV (x : Iv) (y : EReal) : Iv :=
  let s : Iv := if y < 0 then ⟨lset x.up, uset x.lo, x.int⟩ else x
  let z : Iv := ⟨s.lo.mulV y, s.up.mulV y, x.int⟩
  if x.int = false ∨ ¬ isInt y then z.setMaybeReal else z.setInteger

/-- Interval.inlines.hh 704-720, `negate`. -/
def neg (x : Iv) : Iv := ⟨(lset x.up).neg, (uset x.lo).neg, x.int⟩

/-- Interval.inlines.hh 722-738, `abs_assign`. -/
def abs (x : Iv) : Iv :=
  if ltV x 0 then neg x
  else if ¬ gtV x 0 then
    let ub := (uset x.lo).neg
    ⟨⟨0, 0⟩, if ub.gt x.up then ub else x.up, x.int⟩
  else x

/-- Interval.inlines.hh 740-771, `sqr_assign`; in the first branch `upper *= lower` multiplies by the
already squared lower boundary. -/
def sqr (x : Iv) : Iv :=
  let z : Iv :=
    if ltV x 0 then
      let l := lset x.up
      let l2 := lmul l l
      let u := uset x.lo
      ⟨l2, umul u l2, x.int⟩
    else if gtV x 0 then ⟨lmul x.lo x.lo, umul x.up x.up, x.int⟩
    else
      let ub := (uset x.lo).neg
      let u := if ub.gt x.up then ub else x.up
      ⟨⟨0, 0⟩, umul u u, x.int⟩
  if x.int = false then z.setMaybeReal else z.setInteger

/-- Interval.inlines.hh 662-681, `min_assign`. -/
def minA (x y : Iv) : Iv :=
  if y.lo.lt x.lo then
    if y.up.lt x.up then y
    else ⟨y.lo, x.up, if y.int = false then false else x.int⟩
  else if y.up.lt x.up then ⟨x.lo, y.up, if y.int = false then false else x.int⟩
  else x

/-- Interval.inlines.hh 683-702, `max_assign`. -/
def maxA (x y : Iv) : Iv :=
  if y.lo.gt x.lo then
    if y.up.gt x.up then y
    else ⟨y.lo, x.up, if y.int = false then false else x.int⟩
  else if y.up.gt x.up then ⟨x.lo, y.up, if y.int = false then false else x.int⟩
  else x

/-- Interval.inlines.hh 831-839, `floor_assign`. -/
def floorA (x : Iv) : Iv := ⟨lfloor x.lo, ufloor x.up, true⟩
/-- Interval.inlines.hh 841-849, `ceil_assign`. -/
def ceilA (x : Iv) : Iv := ⟨lceil x.lo, uceil x.up, true⟩
/-- Interval.inlines.hh 851-859, `integer_assign`. -/
def intA (x : Iv) : Iv := ⟨lint x.lo, uint x.up, true⟩

end

end Purrs.Interval
