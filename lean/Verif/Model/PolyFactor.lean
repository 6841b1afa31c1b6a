import Verif.Model.IntUtil
import Mathlib.Algebra.Polynomial.Basic
import Mathlib.Algebra.Polynomial.Degree.Defs

/-!
# Model of `src/poly_factor.cc`: the interface to the factorisation of NTL

`ZZ_to_long` and `poly_factor`.  The polynomial is an element of `ℤ[X]`, the function
`factor()` of NTL is a parameter; the size of `long` is a parameter (4 or 8 bytes) and so is
the meaning of the shift of an `int`, which is undefined for a shift count of 32 or more.
-/

open Polynomial

namespace Purrs.PolyFactor

/-- Sequencing of computations that may be undefined or abort. -/
def andThen {α β : Type} : Outcome α → (α → Outcome β) → Outcome β
  | .ok a, f => f a
  | .ub, _ => .ub
  | .throws, _ => .throws

/-- `b[i]` after `BytesFromZZ(b, zz, bs)` (src/poly_factor.cc:44): the `i`-th digit of the
absolute value to the base 256. -/
def byteAt (z : ℤ) (i : ℕ) : ℕ := z.natAbs / 256 ^ i % 256

/-- The value of the low `w` bits as a two's complement number. -/
def wrap (w : ℕ) (z : ℤ) : ℤ :=
  if z % 2 ^ w < 2 ^ (w - 1) then z % 2 ^ w else z % 2 ^ w - 2 ^ w

/-- `b << k` for the `int` `b` by the language standard: undefined if `k` is not less than
the width of `int` (the operand of src/poly_factor.cc:47 is promoted to `int`). -/
def shlStrict (b k : ℕ) : Outcome ℤ := if k < 32 then .ok (wrap 32 (b * 2 ^ k)) else .ub

/-- `b << k` as the shift instruction of the x86 processors does it: the count is taken
modulo 32. -/
def shlX86 (b k : ℕ) : Outcome ℤ := .ok (wrap 32 (b * 2 ^ (k % 32)))

/-- The loop `for (unsigned int i = bs-1; i-- > 0; ) r += b[i] << (i*8)`
(src/poly_factor.cc:46-47) from the value `i` of the counter on; `r` is an `unsigned long`
of `bs` bytes. -/
def bytesLoop (bs : ℕ) (shl : ℕ → ℕ → Outcome ℤ) (z : ℤ) : ℕ → ℤ → Outcome ℤ
  | 0, r => .ok r
  | i + 1, r => andThen (shl (byteAt z i) (i * 8)) fun t => bytesLoop bs shl z i ((r + t) % 2 ^ (8 * bs))

/-- `ZZ_to_long` (src/poly_factor.cc:39-49) for a `long` of `bs` bytes.  The assertion of
line 41 aborts. -/
def zzToLong (bs : ℕ) (shl : ℕ → ℕ → Outcome ℤ) (z : ℤ) : Outcome ℤ :=
  if -2 ^ (8 * bs - 1) ≤ z ∧ z ≤ 2 ^ (8 * bs - 1) - 1 then
    andThen (bytesLoop bs shl z (bs - 1) 0) fun r =>
      .ok (wrap (8 * bs) (if z < 0 then -r % 2 ^ (8 * bs) else r))
  else .throws

/-- The loop that builds one factor (src/poly_factor.cc:85-87), from the coefficient of
degree `i - 1` down. -/
noncomputable def rebuild (conv : ℤ → Outcome ℤ) (f : ℤ[X]) : ℕ → ℤ[X] → Outcome ℤ[X]
  | 0, acc => .ok acc
  | i + 1, acc => andThen (conv (f.coeff i)) fun a => rebuild conv f i (if a ≠ 0 then acc + C a * X ^ i else acc)

/-- One iteration of the loop over the factors of NTL (src/poly_factor.cc:74-89): the two
assertions abort. -/
noncomputable def oneFactor (conv : ℤ → Outcome ℤ) (g : ℤ[X] × ℕ) : Outcome ℤ[X] :=
  if g.2 ≠ 1 then .throws
  else if g.1.natDegree = 0 then .throws
  else rebuild conv g.1 (g.1.natDegree + 1) 0

/-- The loop over the factors (src/poly_factor.cc:74-89). -/
noncomputable def allFactors (conv : ℤ → Outcome ℤ) : List (ℤ[X] × ℕ) → Outcome (List ℤ[X])
  | [] => .ok []
  | g :: l => andThen (oneFactor conv g) fun f => andThen (allFactors conv l) fun r => .ok (f :: r)

/-- All coefficients fit a `long` of `bs` bytes (src/poly_factor.cc:59-65). -/
def fits (bs : ℕ) (p : ℤ[X]) : Prop :=
  ∀ i, i ≤ p.natDegree → -2 ^ (8 * bs - 1) ≤ p.coeff i ∧ p.coeff i ≤ 2 ^ (8 * bs - 1) - 1

instance (bs : ℕ) (p : ℤ[X]) : Decidable (fits bs p) := inferInstanceAs (Decidable (∀ i, i ≤ p.natDegree → _))

/-- `poly_factor` (src/poly_factor.cc:54-91): the returned number and the vector `factors`,
empty at the call.  `ntl` is `factor(c, ntl_factors, ntl_p)`. -/
noncomputable def polyFactor (bs : ℕ) (shl : ℕ → ℕ → Outcome ℤ) (ntl : ℤ[X] → ℤ × List (ℤ[X] × ℕ)) (p : ℤ[X]) :
    Outcome (ℕ × List ℤ[X]) :=
  if fits bs p then
    if (ntl p).2.length = 1 then .ok (1, [])
    else andThen (allFactors (zzToLong bs shl) (ntl p).2) fun l => .ok ((ntl p).2.length, l)
  else .ok (1, [])

end Purrs.PolyFactor
