import Verif.Model.WeightedAvg

/-!
# Model of the verification of solutions (src/verify.cc)

The macro `NEW_VERIFICATION` is 1 (src/verify.cc:27).  The answer is `none` where an `assert` of the code fails or an element
outside of a vector is accessed.

Simplifications: `simplify_all`, `simplify_sum`, `Blackboard::rewrite` and `expand()` are parameters; so are the shape of the
decomposition of the inhomogeneous term, the multiplicities of the characteristic roots and, when the order
reduction was applied, the verdict on the reduced recurrence.
-/

namespace Purrs.Verify

open Purrs Purrs.WeightedAvg

/-- `Verify_Status` (src/Recurrence.defs.hh); `PROVABLY_INCORRECT` is never returned. -/
inductive Verdict where
  | correct
  | partialCorrect
  | inconclusive
  deriving DecidableEq, Repr

/-- The parts of the program that are parameters here: `simplify_all`, `simplify_sum(·, REWRITE_UPPER_LIMIT)`,
`simplify_sum(·, COMPUTE_SUM)`, `blackboard.rewrite`, `expand()`. -/
structure Oracle where
  simp : Expr → Expr
  simpSum : Expr → Expr
  computeSum : Expr → Expr
  rw : Expr → Expr
  expand : Expr → Expr

/-- What is known about the recurrence (src/Recurrence.defs.hh, src/Finite_Order_Info.defs.hh): right-hand side, inhomogeneous
term, order, `first_valid_index`, `gcd_among_decrements()`, the initial conditions by increasing index, the type;
`numExp`, `noPoly`, `maxDeg`: how many exponentials the decomposition of the inhomogeneous term has, if it has a part
that is not polynomial, and the maximal degree of the polynomials; `mults`: the multiplicities of the characteristic roots if
they are found; `reduced`: the verdict on the reduced recurrence (with and without `partial_verification`) if the order
reduction was applied. -/
structure Rec where
  n : String
  rhs : Expr
  inhom : Expr
  order : ℕ
  first : ℕ
  gcd : ℕ
  ics : List (ℕ × Expr)
  linear : Bool
  constCoeff : Bool
  numExp : ℕ
  noPoly : Bool
  maxDeg : ℕ
  mults : Option (List ℕ)
  reduced : Option (Bool → Option Verdict)

/-- `x(k)`. -/
def xAt (k : ℕ) : Expr := .fn .x [.num k]

/-- `x(n - d)`. -/
def xDec (n : String) (d : ℕ) : Expr := .fn .x [shiftN n (-(d : ℚ))]

/-- `get_initial_condition` (src/Recurrence.inlines.hh:172-179). -/
def getIC (ics : List (ℕ × Expr)) (k : ℕ) : Expr := (ics.lookup k).getD (xAt k)

/-- `get_max_index_initial_condition` (src/Recurrence.inlines.hh:181-190). -/
def maxIC (ics : List (ℕ × Expr)) : ℕ := (ics.getLast?.map Prod.fst).getD 0

/-- The arguments of symbolic initial conditions (src/util.cc:665-683). -/
def isICArg (n : String) : Expr → Bool
  | .num q => q.den = 1 && 0 ≤ q
  | .fn .mod [a, b] => a = .sym n && isPosInt b
  | .add [.fn .mod _, _] => true
  | .add [_, .fn .mod _] => true
  | .fn .sc [_, b] => isPosInt b
  | _ => false

/-- `has_only_symbolic_initial_conditions` (src/util.cc:652-689). -/
def hasOnlyIC (n : String) : Expr → Bool
  | .add l => (l.map fun a => hasOnlyIC n a).all id
  | .mul l => (l.map fun a => hasOnlyIC n a).all id
  | .pow b e => hasOnlyIC n b && hasOnlyIC n e
  | .fn f l => if f = .x then isICArg n (l.headD (.num 0)) else (l.map fun a => hasOnlyIC n a).all id
  | .binder _ i lo up body => hasOnlyIC n i && hasOnlyIC n lo && hasOnlyIC n up && hasOnlyIC n body
  | _ => true

/-- `has_at_least_a_symbolic_initial_condition` (src/util.cc:691-694). -/
def hasIC (n : String) (e : Expr) : Bool := hasX e && hasOnlyIC n e

/-- `split_solution` (src/verify.cc:523-543): the terms with and without initial conditions. -/
def splitSolution (n : String) (symbolic : Bool) (sol : Expr) : Expr × Expr :=
  if symbolic then
    match sol with
    | .add l => l.foldr (fun a (p : Expr × Expr) => if hasIC n a then (addE p.1 a, p.2) else (p.1, addE p.2 a)) (.num 0, .num 0)
    | sol => if hasOnlyIC n sol then (sol, .num 0) else (.num 0, sol)
  else (.num 0, sol)

/-- A natural number of an expression, `ex_to_number().to_unsigned_int()`. -/
def natOf : Expr → Option ℕ
  | .num q => if q.den = 1 ∧ 0 ≤ q then some q.num.toNat else none
  | _ => none

/-- Position in the vector of a number `k`: `k - first_valid_index`, within the vector (src/verify.cc:571-574, 584-585). -/
def position (first order k : ℕ) : Option ℕ := if first ≤ k ∧ k - first < order then some (k - first) else none

/-- The position in the vector for an argument of `x` (src/verify.cc:568-586, 592-610). -/
def slot (gcd first order : ℕ) (arg : Expr) : Option ℕ :=
  match arg with
  | .num q => (natOf (.num q)).bind (position first order)
  | .fn .mod _ => if 0 < order then some 0 else none
  | .add [a, b] => ((natOf a).orElse fun _ => natOf b).bind fun k => position first order (k / gcd)
  | _ => none

/-- An application of `x`: its argument. -/
def xArg : Expr → Option Expr
  | .fn .x l => l.head?
  | _ => none

/-- One factor of an addend (src/verify.cc:557-566). -/
def scanStep (f : Expr) (acc : Option (Expr × Expr)) : Option (Expr × Expr) :=
  acc.bind fun p =>
    match xArg f with
    | some a => if p.1 = .num 0 then some (a, p.2) else none
    | none => some (p.1, mulE p.2 f)

/-- The loop over the factors of an addend (src/verify.cc:555-567): the argument of `x` and the other factors. -/
def scanMul (l : List Expr) : Option (Expr × Expr) := l.foldr scanStep (some (.num 0, .num 1))

/-- The argument of `x` and the coefficient of an addend (src/verify.cc:552-567, 588-591). -/
def addendParts (a : Expr) : Option (Expr × Expr) :=
  match a with
  | .mul l => scanMul l
  | a => (xArg a).map fun b => (b, .num 1)

/-- `coefficients_i_c[i] += e`. -/
def addAt (v : List Expr) (i : ℕ) (e : Expr) : List Expr := v.set i (addE (v.getD i (.num 0)) e)

/-- One addend (src/verify.cc:550-612). -/
def fillStep (gcd first order : ℕ) (a : Expr) (acc : Option (List Expr)) : Option (List Expr) :=
  acc.bind fun v => (addendParts a).bind fun p => (slot gcd first order p.1).map fun i => addAt v i p.2

/-- `fill_vector_coefficients_i_c` (src/verify.cc:545-628). -/
def fillVector (gcd first order : ℕ) (withIC : Expr) : Option (List Expr) :=
  match withIC with
  | .add l => l.foldr (fillStep gcd first order) (some (List.replicate order (.num 0)))
  | .mul l =>
    if 0 < order then
      some ((List.replicate order (.num 0)).set 0
        (l.foldr (fun f acc => if (xArg f).isSome then acc else mulE acc f) (.num 1)))
    else none
  | e => if (xArg e).isSome ∧ 0 < order then some ((List.replicate order (.num 0)).set 0 (.num 1)) else none

/-- The value at an index, simplified (src/verify.cc:108-110, 128-133, 140-145, 160-162). -/
def at' (O : Oracle) (n : String) (e : Expr) (k : ℕ) : Expr := O.simp (O.rw (O.simp (substitute (.sym n) (.num k) e)))

/-- `validate_initial_conditions` with values (src/verify.cc:101-119). -/
def validateValues (R : Rec) (O : Oracle) (without : Expr) : Bool :=
  let index := if R.first + R.order - 1 < maxIC R.ics then maxIC R.ics - R.order + 1 else R.first
  (List.range R.order).all fun i => at' O R.n without (index + i) = getIC R.ics (index + i)

/-- `validate_initial_conditions` with symbolic initial conditions (src/verify.cc:121-168). -/
def validateSymbolic (R : Rec) (O : Oracle) (coeffs : List Expr) (withIC without : Expr) : Bool :=
  (List.range R.order).all fun i =>
    (if R.linear then
      (List.range coeffs.length).all fun j =>
        at' O R.n (coeffs.getD j (.num 0)) (R.first + i) = .num (if i = j then 1 else 0)
    else at' O R.n withIC (R.first + i) = xAt (R.first + i)) &&
    (at' O R.n without (R.first + i) = .num 0)

/-- `Expr::substitute` (src/Expr.cc:756-795) for a subexpression `s`, here `x(n - d)`: rebuilding a (canonical) expression
in which `s` does not occur gives it back, so such parts are left as they are. -/
def subX (s r : Expr) (e : Expr) : Expr :=
  if e = s then r
  else if has s e = false then e
  else match e with
  | .add l => l.foldr (fun a acc => addE acc (subX s r a)) (.num 0)
  | .mul l => l.foldr (fun a acc => mulE acc (subX s r a)) (.num 1)
  | .pow b ex => powE (subX s r b) (subX s r ex)
  | .fn f l => .fn f (l.map fun a => subX s r a)
  | .binder k i lo up body => .binder k (subX s r i) (subX s r lo) (subX s r up) (subX s r body)
  | .num q => .num q
  | .const c => .const c
  | .sym t => .sym t
termination_by e

/-- The loop of substitutions of `x(n - d)` (src/verify.cc:184-191, 940-946). -/
def substLoop (R : Rec) (shifted : ℕ → Expr) (ds : List ℕ) (e : Expr) : Expr :=
  ds.foldl (fun acc d => if has (xDec R.n d) acc then subX (xDec R.n d) (shifted d) acc else acc) e

/-- The solution at `n - d`, simplified (src/verify.cc:186-188, 942-944). -/
def shiftSimp (R : Rec) (O : Oracle) (e : Expr) (d : ℕ) : Expr :=
  O.simpSum (O.simp (substitute (.sym R.n) (shiftN R.n (-(d : ℚ))) e))

/-- `e` minus the right-hand side with `e` for the unknown, simplified (src/verify.cc:192-213, 947-958). -/
def residual (R : Rec) (O : Oracle) (rhs e : Expr) : Expr :=
  O.simp (O.rw (subE e (substLoop R (shiftSimp R O e) (List.range' 1 R.order) rhs)))

/-- `traditional_step_3` (src/verify.cc:168-220). -/
def traditional3 (R : Rec) (O : Oracle) (e : Expr) : Bool :=
  residual R O (subE R.rhs R.inhom) e = .num 0 || O.simp (residual R O (subE R.rhs R.inhom) e) = .num 0

/-- A product of the given factors. -/
def prodOf : List Expr → Expr
  | [] => .num 1
  | [e] => e
  | l => .mul l

/-- The exponent of a factor `n` or `n^k`; `some none` is a failing assertion (src/verify.cc:372-383). -/
def powerOfN (n : String) : Expr → Option (Option ℕ)
  | .sym s => if s = n then some (some 1) else none
  | .pow b ex => if b = .sym n then some (natOf ex) else none
  | _ => none

/-- The first factor `n` or `n^k` of a product taken out (src/verify.cc:367-388, 418-436). -/
def takePower (n : String) : List Expr → List Expr → Option (ℕ × Expr)
  | pre, [] => some (0, .mul pre)
  | pre, f :: l =>
    match powerOfN n f with
    | some (some k) => some (k, prodOf (pre ++ l))
    | some none => none
    | none => takePower n (pre ++ [f]) l

/-- The degree and the coefficient of a summand of the difference (src/verify.cc:342-411 for the operands of a sum, 413-455
for a single summand): a symbol, even `n`, that is an operand of a sum goes into the coefficient of degree 0. -/
def cell (n : String) (inSum : Bool) (s : Expr) : Option (ℕ × Expr) :=
  match s with
  | .mul l => takePower n [] l
  | .pow b ex => if b = .sym n then (natOf ex).map fun k => (k, .num 1) else some (0, .pow b ex)
  | .num q => some (0, .num q)
  | .sym t => if inSum then some (0, .sym t) else some (1, .num 1)
  | _ => none

/-- `coefficients_of_exponentials` (src/verify.cc:338-455). -/
def cells (n : String) (maxDeg : ℕ) (diff : Expr) : Option (List Expr) :=
  let put := fun (inSum : Bool) (acc : Option (List Expr)) (s : Expr) =>
    acc.bind fun v => (cell n inSum s).bind fun p => if p.1 < v.length then some (addAt v p.1 p.2) else none
  match diff with
  | .add l => l.foldl (put true) (some (List.replicate (maxDeg + 1) (.num 0)))
  | e => put false (some (List.replicate (maxDeg + 1) (.num 0))) e

/-- The tests of the coefficients (src/verify.cc:458-475). -/
def testCells (R : Rec) (O : Oracle) (tests : ℕ) (v : List Expr) : Bool :=
  v.all fun c => c = .num 0 || (List.range tests).all fun r => O.simp (substitute (.sym R.n) (.num r) c) = .num 0

/-- The largest multiplicity (src/verify.cc:296-299). -/
def maxMult (R : Rec) : ℕ := (R.mults.getD []).foldl max 1

/-- The difference of the new method (src/verify.cc:302-333). -/
def newDiff (R : Rec) (O : Oracle) (inhomPart : Bool) (e : Expr) : Expr :=
  let rhs := if inhomPart then R.rhs else subE R.rhs R.inhom
  O.expand (O.rw (subE e (substLoop R (fun d => substitute (.sym R.n) (shiftN R.n (-(d : ℚ))) e) (List.range' 1 R.order).reverse rhs)))

/-- `verify_new_method_const_coeff` (src/verify.cc:267-478). -/
def newMethod (R : Rec) (O : Oracle) (e : Expr) (inhomPart : Bool) : Option Bool :=
  if inhomPart ∧ R.noPoly then some false
  else
    let deg := (if inhomPart then R.maxDeg else 0) + (maxMult R - 1)
    let tests := (if inhomPart then R.numExp else 0) + R.order
    let diff := newDiff R O inhomPart e
    if diff = .num 0 then some true
    else (cells R.n deg diff).map (testCells R O tests)

/-- Step 3 (src/verify.cc:826-880): `none` if an assertion fails. -/
def step3 (R : Rec) (O : Oracle) (coeffs : List Expr) (withIC : Expr) : Option Bool :=
  let idx := List.range (R.order / R.gcd)
  let trad := if R.linear then idx.all fun i => traditional3 R O (coeffs.getD i (.num 0)) else traditional3 R O withIC
  if R.constCoeff ∧ R.mults.isSome then
    (idx.foldl (fun acc i => acc.bind fun b => if b then newMethod R O (coeffs.getD i (.num 0)) false else some false)
      (some true)).map fun b => b || trad
  else some trad

/-- The positive verdict. -/
def yes (partialVer : Bool) : Verdict := if partialVer then .partialCorrect else .correct

/-- The traditional step 4 (src/verify.cc:925-1000). -/
def step4 (R : Rec) (O : Oracle) (without : Expr) (partialVer : Bool) : Option Verdict :=
  if residual R O R.rhs without = .num 0 then some (yes partialVer)
  else
    match R.reduced with
    | some v => v false
    | none => some (if O.simp (residual R O R.rhs without) = .num 0 then yes partialVer else .inconclusive)

/-- Steps 3 and 4 (src/verify.cc:822-1000). -/
def steps34 (R : Rec) (O : Oracle) (coeffs : List Expr) (withIC without : Expr) (partialVer : Bool) : Option Verdict :=
  (step3 R O coeffs withIC).bind fun ok =>
    if !ok then some .inconclusive
    else if R.ics = [] ∧ R.inhom = .num 0 then
      some (if without = .num 0 then yes partialVer else .inconclusive)
    else if R.constCoeff then
      (newMethod R O without true).bind fun b => if b then some (yes partialVer) else step4 R O without partialVer
    else step4 R O without partialVer

/-- Steps 1 and 2 (src/verify.cc:790-821) and the rest, for the solution `sol`. -/
def verifySolution (R : Rec) (O : Oracle) (sol : Expr) (partialVer : Bool) : Option Verdict :=
  let sp := splitSolution R.n (R.ics = []) sol
  let coeffs := if R.linear ∧ R.ics = [] then fillVector R.gcd R.first R.order sp.1
    else some (List.replicate R.order (.num 0))
  coeffs.bind fun coeffs =>
    if (if R.ics = [] then validateSymbolic R O coeffs sp.1 sp.2 else validateValues R O sp.2) then
      steps34 R O coeffs sp.1 sp.2 partialVer
    else some .inconclusive

/-- `verify_finite_order` (src/verify.cc:715-1001); `sol` is `exact_solution_` without and `evaluated_exact_solution_` with
initial conditions. -/
def verifyFiniteOrder (R : Rec) (O : Oracle) (sol : Expr) (partialVer : Bool) : Option Verdict :=
  if R.order = 0 then some .correct
  else if R.constCoeff ∧ R.ics = [] then
    match R.reduced with
    | some v => v true
    | none => verifySolution R O sol partialVer
  else verifySolution R O sol partialVer

/-- `verify_weighted_average` (src/verify.cc:1056-1118); `h` is the new symbol. -/
def verifyWA (O : Oracle) (n h : String) (wa : WA) (ics : List (ℕ × Expr)) (sol : Expr) : Verdict :=
  let w := if wa.rewritten then wa.origWeight else wa.weight
  let g := if wa.rewritten then wa.origInhom else wa.inhom
  let lower := max (if wa.rewritten then wa.lower else 0) (maxIC ics)
  if w = .num (-1) then .correct
  else if O.simp (substitute (.sym n) (.num (lower + 1)) sol) ≠
      substitute (.sym n) (.num (lower + 1)) (addE (mulE w (getIC ics lower)) g) then .inconclusive
  else
    let s := O.computeSum (.binder .sum (.sym h) (.num (lower + 1)) (shiftN n (-1)) (substitute (.sym n) (.sym h) sol))
    if O.simp (subE (subE (subE sol (mulE w (getIC ics lower))) (mulE w s)) g) = .num 0 then .correct else .inconclusive

/-- Step 2 of `verify_bound` (src/verify.cc:1212-1224): the terms that do not contain only symbolic initial conditions. -/
def partialBound (n : String) (bound : Expr) : Expr :=
  match bound with
  | .add l => l.foldr (fun a acc => if hasOnlyIC n a then acc else addE acc a) (.num 0)
  | e => if hasOnlyIC n e then .num 0 else e

/-- `verify_bound` (src/verify.cc:1186-1277); the steps 3 and 4 are the parameter `rest`, applied to the remaining terms. -/
def verifyBound (O : Oracle) (n : String) (rest : Expr → Verdict) (bound : Expr) : Verdict :=
  let p := partialBound n (O.simpSum bound)
  if p = .num 0 then .correct else rest p

end Purrs.Verify
