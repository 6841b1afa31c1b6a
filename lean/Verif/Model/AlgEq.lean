import Verif.Model.IntUtil
import Mathlib.Algebra.Polynomial.Div
import Mathlib.Algebra.Polynomial.Inductions
import Mathlib.Analysis.SpecialFunctions.Pow.Complex
import Mathlib.Analysis.SpecialFunctions.Trigonometric.Inverse

/-!
# Model of `src/alg_eq_solver.cc`

Simplifications: a polynomial with numeric coefficients is a `Polynomial ℚ`; the value of a
symbolic root (`sqrt`, `cubic_root`, `cos`, `acos`, `Number::I()`) is the complex number it denotes,
with principal powers; `simplify_ex_for_output` only rewrites a root and is omitted; the
square-free decomposition of GiNaC and the factorisation of NTL are parameters.  The vector `roots`
passed by reference is passed and returned; `none` stands for the return value `false`.
-/

namespace Purrs.AlgEq

noncomputable section

open Classical Polynomial

/-- `Polynomial_Root` (src/alg_eq_solver.hh:34-108): value, `RATIONAL` or not, multiplicity. -/
structure Root where
  val : ℂ
  rational : Bool
  mult : ℕ

/-- `solve_equation_2(b, c)` (src/alg_eq_solver.cc:68-80). -/
def solve2 (b c : ℂ) : ℂ × ℂ :=
  let s := (b * b - 4 * c) ^ (1 / 2 : ℂ)
  ((-b + s) / 2, (-b - s) / 2)

/-- `cubic_root(e)`, i.e. `pwr(e, 1/3)` (src/Expr.inlines.hh). -/
def cubicRoot (a : ℂ) : ℂ := a ^ (1 / 3 : ℂ)

/-- `Q` of `solve_equation_3` (src/alg_eq_solver.cc:99). -/
def cubQ (a1 a2 : ℚ) : ℚ := (3 * a2 - a1 * a1) / 9
/-- `R` of `solve_equation_3` (src/alg_eq_solver.cc:100). -/
def cubR (a1 a2 a3 : ℚ) : ℚ := (9 * a1 * a2 - 27 * a3 - 2 * a1 * a1 * a1) / 54
/-- `d` of `solve_equation_3` (src/alg_eq_solver.cc:101). -/
def cubD (a1 a2 a3 : ℚ) : ℚ :=
  cubQ a1 a2 * cubQ a1 a2 * cubQ a1 a2 + cubR a1 a2 a3 * cubR a1 a2 a3

/-- `theta` of `solve_equation_3` (src/alg_eq_solver.cc:105); the argument lies in `[-1, 1]`, where
the complex arc cosine is the real one. -/
def cubTheta (a1 a2 a3 : ℚ) : ℝ :=
  Real.arccos (-(cubR a1 a2 a3 : ℝ) / ((cubQ a1 a2 : ℝ) * √(-(cubQ a1 a2 : ℝ))))

/-- `solve_equation_3(a1, a2, a3)` (src/alg_eq_solver.cc:96-164): the three roots and the answer
"all real". -/
def solve3 (a1 a2 a3 : ℚ) : (ℂ × ℂ × ℂ) × Bool :=
  let Q := cubQ a1 a2
  let R := cubR a1 a2 a3
  let d := cubD a1 a2 a3
  let a1_3 : ℂ := ((a1 / 3 : ℚ) : ℂ)
  if d < 0 then
    let s : ℝ := √(-(Q : ℝ))
    let θ := cubTheta a1 a2 a3
    ((-a1_3 + ((2 * s * Real.cos (θ / 3) : ℝ) : ℂ),
      -a1_3 + ((2 * s * Real.cos ((θ + 2 * Real.pi) / 3) : ℝ) : ℂ),
      -a1_3 + ((2 * s * Real.cos ((θ + 4 * Real.pi) / 3) : ℝ) : ℂ)), decide (d ≤ 0))
  else
    let sd : ℂ := (d : ℂ) ^ (1 / 2 : ℂ)
    let A := (R : ℂ) + sd
    let B := (R : ℂ) - sd
    let S := if Q ≥ 0 then cubicRoot A else if R < 0 then -cubicRoot (-A) else cubicRoot A
    let T := if Q ≥ 0 then -cubicRoot (-B) else if R < 0 then -cubicRoot (-B) else cubicRoot B
    let t1 := -(S + T) / 2 - a1_3
    let t2 := (S - T) * Complex.I * (3 : ℂ) ^ (1 / 2 : ℂ) / 2
    ((S + T - a1_3, t1 + t2, t1 - t2), decide (d ≤ 0))

/-- `f` of `solve_equation_4` (src/alg_eq_solver.cc:172). -/
def quaF (a1 a2 : ℚ) : ℚ := a2 - 3 * a1 * a1 * 1 / 8
/-- `g` of `solve_equation_4` (src/alg_eq_solver.cc:173). -/
def quaG (a1 a2 a3 : ℚ) : ℚ := a3 + a1 * a1 * a1 / 8 - a1 * a2 / 2
/-- `h` of `solve_equation_4` (src/alg_eq_solver.cc:174). -/
def quaH (a1 a2 a3 a4 : ℚ) : ℚ :=
  a4 - 3 * a1 * a1 * a1 * a1 / 256 + a1 * a1 * a2 / 16 - a1 * a3 / 4

/-- The two roots `y1`, `y2` of the auxiliary equation (src/alg_eq_solver.cc:179-193). -/
def quaAux (a1 a2 a3 a4 : ℚ) : ℂ × ℂ :=
  let f := quaF a1 a2
  let g := quaG a1 a2 a3
  let h := quaH a1 a2 a3 a4
  if g = 0 then solve2 ((f / 2 : ℚ) : ℂ) (((f * f - 4 * h) / 16 : ℚ) : ℂ)
  else
    let r := (solve3 (f / 2) ((f * f - 4 * h) / 16) (-g * g / 64)).1
    (r.1, r.2.1)

/-- `solve_equation_4(a1, a2, a3, a4)` (src/alg_eq_solver.cc:168-226).  When one of the roots of the
auxiliary equation is zero an `assert` fails or GiNaC throws at the division: `none`. -/
def solve4 (a1 a2 a3 a4 : ℚ) : Option (ℂ × ℂ × ℂ × ℂ) :=
  let y := quaAux a1 a2 a3 a4
  if y.1 = 0 ∨ y.2 = 0 then none
  else
    let p := y.1 ^ (1 / 2 : ℂ)
    let q := y.2 ^ (1 / 2 : ℂ)
    let r := -(quaG a1 a2 a3 : ℂ) / (8 * p * q)
    let s : ℂ := ((a1 / 4 : ℚ) : ℂ)
    some (p + q + r - s, p - q - r - s, -p + q - r - s, -p - q + r - s)

/-- `cos(j*theta) + I*sin(j*theta)`, `theta = 2 Pi / n` (src/alg_eq_solver.cc:248-255, 487-489). -/
def rootOfUnity (n j : ℕ) : ℂ :=
  Complex.cos (j * (2 * Real.pi / n)) + Complex.I * Complex.sin (j * (2 * Real.pi / n))

/-- `solve_monomial_irrational(a, n, k, monomial_roots)` (src/alg_eq_solver.cc:230-261). -/
def solveMonomial (a : ℚ) (n : ℕ) (k : ℚ) (roots : List Root) : List Root :=
  let pos := roots.any fun r => decide (r.val.re > 0)
  let neg := roots.any fun r => decide (¬ r.val.re > 0)
  roots ++ (List.range n).filterMap fun (j : ℕ) =>
    if (pos = true ∧ j = 0) ∨ (neg = true ∧ (j : ℤ) * 2 - (n % 2 : ℕ) = n) then none
    else some ⟨((-k / a : ℚ) : ℂ) ^ (((1 : ℚ) / n : ℚ) : ℂ) * rootOfUnity n j, false, 1⟩

/-- The first exponent `≥ 2` with a non-zero coefficient (src/alg_eq_solver.cc:287-289). -/
def firstExp (p : ℚ[X]) : ℕ :=
  ((List.range' 2 (p.natDegree - 1)).find? fun i => decide (p.coeff i ≠ 0)).getD 0

/-- The `for` of src/alg_eq_solver.cc:299-303. -/
def gcdExps (p : ℚ[X]) (i : ℕ) : ℕ :=
  (List.range' (i + 1) (p.natDegree - i)).foldl (fun (n j : ℕ) =>
    if n > 1 ∧ p.coeff j ≠ 0 then (gcdLoop n j).toNat else n) i

/-- `is_nested_polynomial(p, x, q)` (src/alg_eq_solver.cc:269-318): `(n, q)`. -/
def isNested (p : ℚ[X]) : ℕ × ℚ[X] :=
  if p.natDegree = 0 then (0, p)
  else if p.coeff 1 ≠ 0 then (1, p)
  else
    let n := gcdExps p (firstExp p)
    if n > 1 then
      (n, (List.range' 1 (p.natDegree / n)).foldl (fun q j => q + C (p.coeff (n * j)) * X ^ j)
        (C (p.coeff 0)))
    else (n, p)

/-- The candidates of the search for rational roots in the order they are tried
(src/alg_eq_solver.cc:366-382).  `lc` and `tc` are integers. -/
def candidates (lc tc : ℚ) : List ℚ :=
  ((findDivisors lc.num.natAbs).getD []).flatMap fun (l : ℕ) =>
    ((findDivisors tc.num.natAbs).getD []).flatMap fun (t : ℕ) =>
      [(t : ℚ) / (l : ℚ), -((t : ℚ) / (l : ℚ))]

/-- One test of the search (src/alg_eq_solver.cc:369-374): the polynomial, its recorded degree and
the rational roots found. -/
def ratStep (st : ℚ[X] × ℕ × List ℚ) (r : ℚ) : ℚ[X] × ℕ × List ℚ :=
  if st.1.eval r = 0 then (st.1 /ₘ (X - C r), st.2.1 - 1, st.2.2 ++ [r]) else st

/-- The whole search (src/alg_eq_solver.cc:359-382). -/
def ratSearch (q : ℚ[X]) : ℚ[X] × ℕ × List ℚ :=
  (candidates q.leadingCoeff (q.coeff 0)).foldl ratStep (q, q.natDegree, [])

/-- `is_monomial` (src/alg_eq_solver.cc:347-355): all middle coefficients vanish. -/
def isBinomial (q : ℚ[X]) : Prop :=
  q.coeff 0 ≠ 0 ∧ ∀ d, 1 ≤ d → d < q.natDegree → q.coeff d = 0

/-- The `switch` for degrees 1 to 4 (src/alg_eq_solver.cc:403-458).  The vector first grows by
`degree` default elements (value 0, `RATIONAL`, multiplicity 1, src/alg_eq_solver.hh:58); the
cases 2, 3, 4 overwrite their value and type, the case 1 pushes another element. -/
def directRoots (q : ℚ[X]) (mult : ℕ) (roots : List Root) : Option (List Root) :=
  let lc := q.leadingCoeff
  let tc := q.coeff 0
  match q.natDegree with
  | 1 => some (roots ++ [⟨0, true, 1⟩] ++ [⟨((-tc / lc : ℚ) : ℂ), true, mult⟩])
  | 2 =>
    let r := solve2 ((q.coeff 1 / lc : ℚ) : ℂ) ((tc / lc : ℚ) : ℂ)
    some (roots ++ [⟨r.1, false, 1⟩, ⟨r.2, false, 1⟩])
  | 3 =>
    let r := (solve3 (q.coeff 2 / lc) (q.coeff 1 / lc) (tc / lc)).1
    some (roots ++ [⟨r.1, false, 1⟩, ⟨r.2.1, false, 1⟩, ⟨r.2.2, false, 1⟩])
  | _ =>
    (solve4 (q.coeff 3 / lc) (q.coeff 2 / lc) (q.coeff 1 / lc) (tc / lc)).map fun r =>
      roots ++ [⟨r.1, false, 1⟩, ⟨r.2.1, false, 1⟩, ⟨r.2.2.1, false, 1⟩, ⟨r.2.2.2, false, 1⟩]

/-- The roots of `q = r(x^n)` from those of `r` (src/alg_eq_solver.cc:487-497). -/
def nestedRoots (n : ℕ) (mult : ℕ) (rs : List Root) : List Root :=
  (List.range n).flatMap fun (j : ℕ) => rs.map fun y =>
    ⟨y.val ^ (((1 : ℚ) / n : ℚ) : ℂ) * rootOfUnity n j, false, mult⟩

/-- The polynomial without the root zero (src/alg_eq_solver.cc:324-335). -/
def dropZero (p : ℚ[X]) : ℚ[X] := if p.natTrailingDegree = 1 then p.divX else p

/-- The roots recorded before the search: zero, if it is one (src/alg_eq_solver.cc:328). -/
def zeroRoots (p : ℚ[X]) (mult : ℕ) : List Root :=
  if p.natTrailingDegree = 1 then [⟨0, true, mult⟩] else []

/-- The records of the rational roots found (src/alg_eq_solver.cc:372, 379). -/
def ratRoots (mult : ℕ) (rs : List ℚ) : List Root := rs.map fun r => ⟨(r : ℂ), true, mult⟩

/-- One activation of the inner `find_roots(p, x, roots, multiplicity)`
(src/alg_eq_solver.cc:320-510).  `fac` is `poly_factor`; `rec` are the calls of itself. -/
def findStep (fac : ℚ[X] → List ℚ[X]) (rec : ℚ[X] → List Root → ℕ → Option (List Root))
    (p : ℚ[X]) (roots : List Root) (mult : ℕ) : Option (List Root) :=
  let roots := roots ++ zeroRoots p mult
  let q := dropZero p
  if p.natTrailingDegree = 1 ∧ q.natDegree = 0 then some roots
  else if q.natDegree = 1 then
    some (roots ++ [⟨((-q.coeff 0 / q.leadingCoeff : ℚ) : ℂ), true, mult⟩])
  else
    let small := |q.leadingCoeff| < 121 ∧ |q.coeff 0| < 121
    let s := if small then ratSearch q else (q, q.natDegree, [])
    let roots := roots ++ ratRoots mult s.2.2
    if small ∧ s.2.1 = 0 then some roots
    else if small ∧ isBinomial q then
      some (solveMonomial (q.coeff 0) (s.2.1 + roots.length) q.leadingCoeff roots)
    else if s.2.1 ≤ 4 then directRoots s.1 mult roots
    else
      let nest := isNested s.1
      let nested :=
        if nest.1 > 1 then
          (rec nest.2 [] 1).map fun rs => roots ++ nestedRoots nest.1 mult rs
        else none
      match nested with
      | some r => some r
      | none =>
        let fs := fac s.1
        if fs.length > 1 then
          fs.foldr (fun f acc => acc.bind fun rs => rec f rs 1) (some roots)
        else none

/-- The inner `find_roots(p, x, roots, multiplicity)` (src/alg_eq_solver.cc:320-510); `fuel` bounds
the depth of the recursion, which decreases the degree. -/
def findRoots (fac : ℚ[X] → List ℚ[X]) : ℕ → ℚ[X] → List Root → ℕ → Option (List Root)
  | 0 => fun _ _ _ => none
  | fuel + 1 => findStep fac (findRoots fac fuel)

/-- `PURRS::find_roots(p, x, roots, all_distinct)` (src/alg_eq_solver.cc:550-599), with
`find_power_roots` (src/alg_eq_solver.cc:512-523), from the square-free decomposition
`[(f₁, m₁), ...]` on; the second component of the answer is `all_distinct`. -/
def findAllRoots (fac : ℚ[X] → List ℚ[X]) (fuel : ℕ) (sqf : List (ℚ[X] × ℕ)) (roots : List Root) :
    Option (List Root) × Bool :=
  (sqf.foldl (fun acc f => acc.bind fun rs => findRoots fac fuel f.1 rs f.2) (some roots),
    decide (sqf.length = 1 ∧ ∀ f ∈ sqf, f.2 = 1))

end

end Purrs.AlgEq
