import Mathlib.Data.Rat.Defs

/-!
# Model of the integer utilities of `src/util.cc`, `src/Number.inlines.hh`
-/

namespace Purrs

/-- The `while` loop of `PURRS::gcd(int n, int m)` (src/util.cc:60-69).
`n % m` of C++ truncates towards zero: `Int.tmod`.  The variable `r` equals `m`
at each loop test, so the test `r != 0` is written on `m`.  `int` is modelled by
unbounded integers here; `gcd32` adds the machine range. -/
def gcdLoop (n m : Int) : Int :=
  if m = 0 then n else gcdLoop m (n.tmod m)
termination_by m.natAbs
decreasing_by
  rw [Int.natAbs_tmod]
  exact Nat.mod_lt _ (by omega)

/-- Outcome of a C++ computation that may be undefined behaviour. -/
inductive Outcome (α : Type) where
  | ok (a : α)
  | ub
  | throws
  deriving DecidableEq, Repr

/-- `x` fits a 32-bit `int`. -/
def InInt (x : Int) : Prop := -2147483648 ≤ x ∧ x ≤ 2147483647

instance : DecidablePred InInt := fun _ => inferInstanceAs (Decidable (_ ∧ _))

/-- `PURRS::gcd(int n, int m)` (src/util.cc:60-69) on a 32-bit machine: the first
`INT_MIN % -1` overflows and is undefined behaviour. -/
def gcd32 (n m : Int) : Outcome Int :=
  if m = 0 then .ok n
  else if n = -2147483648 ∧ m = -1 then .ub
  else gcd32 m (n.tmod m)
termination_by m.natAbs
decreasing_by
  rw [Int.natAbs_tmod]
  exact Nat.mod_lt _ (by omega)

/-- `PURRS::lcm(const std::vector<Number>&)` (src/util.cc:82-88): folds from the
last element down to the first.  `lcm(Number, Number)` is GiNaC's integer lcm,
modelled by `Int.lcm`. -/
def lcmVec (v : List Int) : Int :=
  v.foldr (fun a n => (Int.lcm n a : Int)) 1

/-- Inner loop `while (mod(m, i) == 0) { m /= i; ++k; }` of `partial_factor`
(src/util.cc:113-116 and 122-125); returns the final `m` and `k`.  For `m = 0` or
`i ≤ 1` the C++ loop would not terminate; both are excluded by the caller
(`assert(m != 0)`, `i ≥ 2`), the model then returns at once. -/
def stripFactor (i m k : Nat) : Nat × Nat :=
  if h : 2 ≤ i ∧ 0 < m ∧ m % i = 0 then stripFactor i (m / i) (k + 1) else (m, k)
termination_by m
decreasing_by exact Nat.div_lt_self h.2.1 h.1

/-- The `for` loop of `partial_factor` (src/util.cc:120-130) from index `i` on,
with `FACTOR_THRESHOLD = 100` (src/util.cc:44-45) as parameter `t`. -/
def factorLoop (t i m : Nat) (acc : List (Nat × Nat)) : Nat × List (Nat × Nat) :=
  if i < t ∧ i * i ≤ m then
    let r := stripFactor i m 0
    factorLoop t (i + 2) r.1 (if 0 < r.2 then acc ++ [(i, r.2)] else acc)
  else (m, acc)
termination_by t - i

/-- `PURRS::partial_factor` (src/util.cc:104-140): the vectors `bases` and
`exponents` are returned as one list of pairs (they are pushed in lockstep). -/
def partialFactor (n : Int) : List (Nat × Nat) :=
  let m := n.natAbs
  let r := stripFactor 2 m 0
  let acc := if 0 < r.2 then [(2, r.2)] else []
  let f := factorLoop 100 3 r.1 acc
  let acc := if 1 < f.1 then f.2 ++ [(f.1, 1)] else f.2
  if f.1 = 1 ∧ acc.length = 0 then acc ++ [(1, 1)] else acc

/-- The `for` loop of `find_divisors` (src/util.cc:161-169) with
`FIND_DIVISORS_MAX` as parameter `mx`. -/
def divisorsLoop (mx m i j : Nat) : List Nat :=
  if i < mx ∧ i < j then
    let j' := m / i
    (if m % i = 0 then (if i < j' then [i, j'] else [i]) else [])
      ++ divisorsLoop mx m (i + 1) j'
  else []
termination_by mx - i

/-- `PURRS::find_divisors` (src/util.cc:151-173), parametric in
`FIND_DIVISORS_MAX`; `none` stands for the return value `false`. -/
def findDivisorsMax (mx n : Nat) : Option (List Nat) :=
  if n < mx * mx then
    some (if n = 1 then [1] else divisorsLoop mx n 1 n)
  else none

/-- `PURRS::find_divisors` with `FIND_DIVISORS_MAX = 11` (src/util.cc:47-50). -/
def findDivisors (n : Nat) : Option (List Nat) := findDivisorsMax 11 n

/-- `Number::to_int` on rational numbers (src/Number.inlines.hh:326-335). -/
def toInt (q : ℚ) : Outcome Int :=
  if q.den ≠ 1 ∨ (q.num > 0 ∧ q.num > 2147483647) ∨ (q.num < 0 ∧ q.num < -2147483648)
  then .throws else .ok q.num

/-- `Number::to_unsigned_int` (src/Number.inlines.hh:337-346): same range test as
`to_int`, then the conversion `unsigned(int)` reduces modulo `2^32`. -/
def toUnsignedInt (q : ℚ) : Outcome Int :=
  if q.den ≠ 1 ∨ (q.num > 0 ∧ q.num > 2147483647) ∨ (q.num < 0 ∧ q.num < -2147483648)
  then .throws else .ok (q.num % 4294967296)

/-- `Number::to_long` (src/Number.inlines.hh:348-357), 64-bit `long`. -/
def toLong (q : ℚ) : Outcome Int :=
  if q.den ≠ 1 ∨ (q.num > 0 ∧ q.num > 9223372036854775807)
      ∨ (q.num < 0 ∧ q.num < -9223372036854775808)
  then .throws else .ok q.num

/-- `mod(Number, Number)` on integers (src/Number.inlines.hh:384-391): GiNaC's
`mod` is the remainder of the floored division (sign of the divisor). -/
def numMod (x y : Int) : Outcome Int :=
  if y = 0 then .throws else .ok (x.fmod y)

end Purrs
