import Verif.Model.Expr
import Verif.Model.IntUtil

/-!
# The user-visible state machine of `PURRS::Recurrence`
(src/Recurrence.inlines.hh, src/Recurrence.cc)

The object caches a classification, the symbolic solution and bounds and their values on the
initial conditions.  The model keeps exactly those caches and the control flow of the public
methods.  The mathematics (classifying, solving, bounding, applying initial conditions) is a
parameter, the `Engine`; the theorems hold for every engine.

Simplifications: the `blackboard`, `system_rhs`, `recurrence_rewritten`, `Sc` texts are not in the
state; renaming of system-generated symbols is the function `Engine.rename` (modelled concretely in
`Verif.Model.Rename`); the divisor of a functional equation is a natural number; failing `assert`s
are not modelled.
-/

namespace Purrs

/-- `Recurrence::Type` (src/Recurrence.defs.hh). -/
inductive RType where
  | unknown | orderZero | linConst | linVar | nonLinear | weighted | functional | maxFn
  deriving DecidableEq, Repr

/-- `Recurrence::Classifier_Status` after `classify_and_catch_special_cases`
(src/rr_classifier.cc:1615-1682), which eliminates negative and null decrements. -/
inductive ClStatus where
  | notYet | success | indeterminate | unsolvable | nonIntegerDecrement | malformed | domainError
  | hugeDecrement | tooComplex
  deriving DecidableEq, Repr

/-- `Recurrence::Solver_Status` (src/Recurrence.defs.hh). -/
inductive SolverStatus where
  | success | indeterminate | unsolvable | malformed | domainError | tooComplex
  deriving DecidableEq, Repr

/-- `map_status` (src/Recurrence.cc:476-500); `none` is the internal error thrown by `default`. -/
def mapStatus : ClStatus → Option SolverStatus
  | .success => some .success
  | .indeterminate => some .indeterminate
  | .unsolvable => some .unsolvable
  | .nonIntegerDecrement => some .malformed
  | .malformed => some .malformed
  | .domainError => some .domainError
  | .hugeDecrement => some .tooComplex
  | .tooComplex => some .tooComplex
  | .notYet => none

/-- What the classification records: the type, the order (for a non-linear recurrence the order of
the associated linear one), the first valid index and the smallest divisor of a functional
equation. -/
structure Info where
  ty : RType
  order : Nat
  first : Nat
  divisor : Nat
  deriving DecidableEq, Repr

/-- `std::map<index_type, Expr>`: bindings in increasing order of the index. -/
abbrev ICMap := List (Nat × Expr)

/-- The invariant of `std::map`. -/
def ICMap.Sorted (m : ICMap) : Prop := m.Pairwise fun a b => a.1 < b.1

/-- Lower or upper bound. -/
inductive BoundKind where
  | lower | upper
  deriving DecidableEq, Repr

/-- The mathematics behind the object.  `classify` gives the status, the record and the rewritten
right-hand side (src/rr_classifier.cc:1615-1682); `solve` the symbolic solution of a non-functional
recurrence (its third argument tells whether initial conditions are present, which selects the
expanded form at src/Recurrence.cc:459-465); `bound` the bound of a functional equation
or of a non-linear recurrence; `onIC` is `compute_solution_or_bound_on_i_c`; `rename` is
`replace_system_generated_symbols`. -/
structure Engine where
  classify : Expr → ClStatus × Info × Expr
  solve : Expr → Info → Bool → Except SolverStatus Expr
  bound : Expr → Info → BoundKind → Except SolverStatus Expr
  onIC : Expr → Info → ICMap → Expr → Expr
  rename : Expr → Expr

/-- The data members of `Recurrence` (src/Recurrence.defs.hh:1240-1400). -/
structure RecState where
  cl : ClStatus
  rhs : Expr
  info : Info
  exact : Option Expr
  lower : Option Expr
  upper : Option Expr
  evExact : Option Expr
  evLower : Option Expr
  evUpper : Option Expr
  tried : Bool
  firstSol : Nat
  ics : ICMap

namespace RecState

/-- `Recurrence(const Expr& e)` (src/Recurrence.inlines.hh:55-69). -/
def new (e : Expr) : RecState :=
  ⟨.notYet, e, ⟨.unknown, 0, 0, 0⟩, none, none, none, none, none, none, false, 0, []⟩

/-- `replace_recurrence(e)` (src/Recurrence.inlines.hh:124-128). -/
def replace (s : RecState) (e : Expr) : RecState := { s with rhs := e, cl := .notYet }

/-- `reset_initial_conditions()` (src/Recurrence.inlines.hh:160-166). -/
def resetICs (s : RecState) : RecState :=
  { s with ics := [], evExact := none, evLower := none, evUpper := none }

/-- `get_initial_condition(k)` (src/Recurrence.inlines.hh:173-180). -/
def getIC (s : RecState) (k : Nat) : Expr :=
  match s.ics.find? (fun p => p.1 = k) with
  | some p => p.2
  | none => .fn .x [.num k]

/-- `initial_conditions.rbegin()->first` (undefined on an empty map: `none`). -/
def largestKey (m : ICMap) : Option Nat := m.getLast?.map Prod.fst

/-- `get_max_index_initial_condition()` (src/Recurrence.inlines.hh:182-190). -/
def maxIC (s : RecState) : Nat := (largestKey s.ics).getD 0

/-- `classify_and_catch_special_cases()` (src/rr_classifier.cc:1615-1682): the status is
cached. -/
def classify (E : Engine) (s : RecState) : RecState :=
  if s.cl ≠ .notYet then s
  else { s with cl := (E.classify s.rhs).1, info := (E.classify s.rhs).2.1,
                rhs := (E.classify s.rhs).2.2 }

/-! ### `set_initial_conditions` -/

/-- Result of `set_initial_conditions`. -/
inductive SetResult where
  | accepted | invalidArgument | runtimeError | ub
  deriving DecidableEq, Repr

/-- Unsigned 32-bit subtraction. -/
def subU32 (a b : Nat) : Nat := (a + 4294967296 - b % 4294967296) % 4294967296

/-- The `for` of src/Recurrence.cc:111-123: `j` is the loop counter, `r` the number of iterations
left, the list what is left of the reversed map after the largest entry. -/
def consecLoop (largest : Nat) : Nat → Nat → List Nat → SetResult
  | _, 0, _ => .accepted
  | _, _ + 1, [] => .ub
  | j, r + 1, i :: rest =>
      if i ≠ subU32 largest j then .invalidArgument else consecLoop largest (j + 1) r rest

/-- A value that is a negative number (src/Recurrence.cc:131-139). -/
def isNegNum : Expr → Bool
  | .num q => q < 0
  | _ => false

/-- The finite-order branch (src/Recurrence.cc:79-142). -/
def checkFinite (info : Info) (nonLinear : Bool) (m : ICMap) : SetResult :=
  if m.length < info.order then .invalidArgument
  else match largestKey m with
    | none => .ub
    | some largest =>
      if largest < info.first then .invalidArgument
      else match consecLoop largest 1 (info.order - 1) ((m.map Prod.fst).reverse.drop 1) with
        | .accepted =>
            if nonLinear && m.any (fun p => isNegNum p.2) then .invalidArgument else .accepted
        | r => r

/-- The loop of the functional-equation branch (src/Recurrence.cc:206-232): `j` the counter, `r`
the iterations left. -/
def funLoop : Nat → Nat → ICMap → SetResult
  | _, 0, _ => .accepted
  | _, _ + 1, [] => .ub
  | j, r + 1, (i, v) :: rest =>
      if i ≠ j then .invalidArgument
      else match v with
        | .num q => if q < 0 then .invalidArgument else funLoop (j + 1) r rest
        | _ => .invalidArgument

/-- The functional-equation branch (src/Recurrence.cc:165-235).  The case of one initial condition
(src/Recurrence.cc:182-204) makes the same checks as the loop. -/
def checkFunctional (info : Info) (m : ICMap) : SetResult :=
  if m.length ≠ info.divisor - 1 then .invalidArgument
  else funLoop 1 (info.divisor - 1) m

/-- The `switch` of `set_initial_conditions` (src/Recurrence.cc:74-240). -/
def checkICs (info : Info) (m : ICMap) : SetResult :=
  match info.ty with
  | .orderZero => .accepted
  | .linConst => checkFinite info false m
  | .linVar => checkFinite info false m
  | .nonLinear => checkFinite info true m
  | .weighted =>
      match largestKey m with
      | none => .invalidArgument
      | some l => if l < info.first then .invalidArgument else .accepted
  | .functional => checkFunctional info m
  | .unknown => .runtimeError
  | .maxFn => .runtimeError

/-- The part of `set_initial_conditions(m)` after the classification
(src/Recurrence.cc:70-244). -/
def setICsClassified (t : RecState) (m : ICMap) : RecState × SetResult :=
  if t.cl ≠ .success then (t, .runtimeError)
  else match checkICs t.info m with
    | .accepted => ({ t with ics := m }, .accepted)
    | r => (t, r)

/-- `set_initial_conditions(m)` (src/Recurrence.cc:64-244). -/
def setICs (E : Engine) (s : RecState) (m : ICMap) : RecState × SetResult :=
  setICsClassified (classify E (if s.ics ≠ [] then s.resetICs else s)) m

/-! ### Computing -/

/-- `compute_exact_solution_finite_order` (src/Recurrence.cc:1138-1183). -/
def computeFinite (E : Engine) (s : RecState) : RecState × SolverStatus :=
  match E.solve s.rhs s.info (!s.ics.isEmpty) with
  | .error st => (s, st)
  | .ok e =>
      let s1 := { s with exact := some e, lower := some e, upper := some e }
      if s.ics ≠ [] ∧ s.info.order > 0 then
        let v := E.rename (E.onIC s.rhs s.info s.ics e)
        ({ s1 with evExact := some v, evLower := some v, evUpper := some v }, .success)
      else (s1, .success)

/-- `compute_exact_solution_non_linear`, `compute_exact_solution_weighted_average`
(src/Recurrence.cc:1211-1262). -/
def computeOther (E : Engine) (s : RecState) : RecState × SolverStatus :=
  match E.solve s.rhs s.info (!s.ics.isEmpty) with
  | .error st => (s, st)
  | .ok e =>
      let s1 := { s with exact := some e, lower := some e, upper := some e }
      if s.ics ≠ [] then
        let v := E.onIC s.rhs s.info s.ics e
        ({ s1 with evExact := some v, evLower := some v, evUpper := some v }, .success)
      else (s1, .success)

/-- `compute_exact_solution_max` (src/Recurrence.cc:1264-1311): with initial conditions the local
variable `solution`, still zero, is the one evaluated. -/
def computeMax (E : Engine) (s : RecState) : RecState × SolverStatus :=
  match E.solve s.rhs s.info (!s.ics.isEmpty) with
  | .error st => (s, st)
  | .ok e =>
      let s1 := { s with exact := some e }
      if s.ics ≠ [] then
        let v := E.onIC s.rhs s.info s.ics (.num 0)
        ({ s1 with evExact := some v, evLower := some v, evUpper := some v }, .success)
      else (s1, .success)

/-- `approximate_functional_equation(kind)` (src/compute_bounds.cc:936-980); `Expr(bool)` is the
number 1. -/
def approxFunctional (E : Engine) (s : RecState) (k : BoundKind) : RecState × SolverStatus :=
  match E.bound s.rhs s.info k with
  | .error st => (s, st)
  | .ok b =>
      match k with
      | .lower =>
          ({ s with lower := some b,
                    exact := if s.upper = some b then some (.num 1) else s.exact }, .success)
      | .upper =>
          ({ s with upper := some b,
                    exact := if s.lower = some b then some (.num 1) else s.exact }, .success)

/-- `compute_exact_solution_functional_equation` (src/Recurrence.cc:1185-1209). -/
def computeFunctional (E : Engine) (s : RecState) : RecState × SolverStatus :=
  let r1 := approxFunctional E s .lower
  if r1.2 = .success then
    let r2 := approxFunctional E r1.1 .upper
    if r2.2 = .success ∧ r2.1.lower = r2.1.upper then
      let s1 := { r2.1 with exact := r2.1.lower }
      if s.ics ≠ [] then
        let v := s1.exact.map fun e => E.onIC s.rhs s.info s.ics e
        ({ s1 with evExact := v, evLower := v, evUpper := v }, .success)
      else (s1, .success)
    else (r2.1, .tooComplex)
  else (r1.1, .tooComplex)

/-- `compute_exact_solution()` (src/Recurrence.cc:1313-1373) after its first assignment; `none` is an
internal error. -/
def computeExactTried (E : Engine) (s : RecState) : RecState × Option SolverStatus :=
  match s.exact with
  | some e =>
      if s.ics ≠ [] ∧ s.evExact = none then
        let v := E.onIC s.rhs s.info s.ics e
        ({ s with evExact := some v, evLower := some v, evUpper := some v }, some .success)
      else (s, some .success)
  | none =>
      if s.lower ≠ none ∧ s.lower = s.upper then ({ s with exact := s.lower }, some .success)
      else
        let s1 := s.classify E
        if s1.cl = .success then
          match s1.info.ty with
          | .orderZero => (computeFinite E s1).map id some
          | .linConst => (computeFinite E s1).map id some
          | .linVar => (computeFinite E s1).map id some
          | .functional => (computeFunctional E s1).map id some
          | .nonLinear => (computeOther E s1).map id some
          | .weighted => (computeOther E s1).map id some
          | .maxFn => (computeMax E s1).map id some
          | .unknown => (s1, none)
        else (s1, mapStatus s1.cl)

/-- `compute_exact_solution()` (src/Recurrence.cc:1313-1373): `tried_to_compute_exact_solution` is
set first. -/
def computeExact (E : Engine) (s : RecState) : RecState × Option SolverStatus :=
  computeExactTried E { s with tried := true }

/-- `compute_lower_bound()` (src/Recurrence.cc:1451-1512), with
`compute_bound_functional_equation` and `compute_bound_non_linear`
(src/Recurrence.cc:1412-1449). -/
def computeLower (E : Engine) (s : RecState) : RecState × Option SolverStatus :=
  match s.lower with
  | some l =>
      if s.ics ≠ [] ∧ s.evLower = none then
        ({ s with evLower := some (E.onIC s.rhs s.info s.ics l) }, some .success)
      else (s, some .success)
  | none =>
    match s.exact with
    | some e =>
        if s.ics ≠ [] ∧ s.evLower = none then
          let v := E.onIC s.rhs s.info s.ics e
          ({ s with evExact := some v, evLower := some v, lower := some e }, some .success)
        else ({ s with lower := some e }, some .success)
    | none =>
        let s1 := s.classify E
        if s1.cl = .success then
          match s1.info.ty with
          | .orderZero => if !s1.tried then computeExact E s1 else (s1, some .tooComplex)
          | .linConst => if !s1.tried then computeExact E s1 else (s1, some .tooComplex)
          | .linVar => if !s1.tried then computeExact E s1 else (s1, some .tooComplex)
          | .weighted => if !s1.tried then computeExact E s1 else (s1, some .tooComplex)
          | .functional =>
              let r := approxFunctional E s1 .lower
              if r.2 = .success ∧ s1.ics ≠ [] then
                ({ r.1 with evLower := r.1.lower.map fun l => E.onIC s1.rhs s1.info s1.ics l },
                  some .success)
              else (r.1, some r.2)
          | .nonLinear =>
              match E.bound s1.rhs s1.info .lower with
              | .error st => (s1, some st)
              | .ok b => ({ s1 with lower := some b }, some .success)
          | .maxFn => (s1, some .tooComplex)
          | .unknown => (s1, none)
        else (s1, mapStatus s1.cl)

/-- `compute_upper_bound()` (src/Recurrence.cc:1514-1575). -/
def computeUpper (E : Engine) (s : RecState) : RecState × Option SolverStatus :=
  match s.upper with
  | some l =>
      if s.ics ≠ [] ∧ s.evUpper = none then
        ({ s with evUpper := some (E.onIC s.rhs s.info s.ics l) }, some .success)
      else (s, some .success)
  | none =>
    match s.exact with
    | some e =>
        if s.ics ≠ [] ∧ s.evUpper = none then
          let v := E.onIC s.rhs s.info s.ics e
          ({ s with evExact := some v, evUpper := some v, upper := some e }, some .success)
        else ({ s with upper := some e }, some .success)
    | none =>
        let s1 := s.classify E
        if s1.cl = .success then
          match s1.info.ty with
          | .orderZero => if !s1.tried then computeExact E s1 else (s1, some .tooComplex)
          | .linConst => if !s1.tried then computeExact E s1 else (s1, some .tooComplex)
          | .linVar => if !s1.tried then computeExact E s1 else (s1, some .tooComplex)
          | .weighted => if !s1.tried then computeExact E s1 else (s1, some .tooComplex)
          | .functional =>
              let r := approxFunctional E s1 .upper
              if r.2 = .success ∧ s1.ics ≠ [] then
                ({ r.1 with evUpper := r.1.upper.map fun l => E.onIC s1.rhs s1.info s1.ics l },
                  some .success)
              else (r.1, some r.2)
          | .nonLinear =>
              match E.bound s1.rhs s1.info .upper with
              | .error st => (s1, some st)
              | .ok b => ({ s1 with upper := some b }, some .success)
          | .maxFn => (s1, some .tooComplex)
          | .unknown => (s1, none)
        else (s1, mapStatus s1.cl)

/-! ### Queries -/

/-- `set_first_valid_index_for_solution` (src/Recurrence.cc:250-283). -/
def setFirstSol (s : RecState) : RecState :=
  let f := s.info.first
  { s with firstSol :=
      if s.ics = [] then (if s.info.ty = .weighted then f + 1 else f)
      else if s.info.ty = .linConst ∨ s.info.ty = .linVar ∨ s.info.ty = .nonLinear then
        max f (((s.ics.reverse.drop (s.info.order - 1)).head?.map Prod.fst).getD 0)
      else if s.info.ty = .weighted then max f (maxIC s) + 1
      else f }

/-- `exact_solution(e)` (src/Recurrence.cc:1374-1410): the new state and the answer; `none` is
`std::logic_error`. -/
def getExact (E : Engine) (s : RecState) : RecState × Option Expr :=
  match s.exact with
  | none => (s, none)
  | some e =>
    if s.ics = [] then (setFirstSol { s with exact := some (E.rename e) }, some (E.rename e))
    else match s.evExact with
      | some v => (setFirstSol s, some v)
      | none =>
          let v := E.rename (E.onIC s.rhs s.info s.ics e)
          (setFirstSol { s with evExact := some v, evLower := some v, evUpper := some v }, some v)

/-- `lower_bound(e)` (src/Recurrence.cc:1577-1611). -/
def getLower (E : Engine) (s : RecState) : RecState × Option Expr :=
  match s.lower with
  | none => (s, none)
  | some e =>
    if s.ics = [] then (setFirstSol { s with lower := some (E.rename e) }, some (E.rename e))
    else match s.evLower with
      | some v => (setFirstSol s, some v)
      | none =>
          let v := E.rename (E.onIC s.rhs s.info s.ics e)
          (setFirstSol { s with evLower := some v }, some v)

/-- `upper_bound(e)` (src/Recurrence.cc:1613-1647). -/
def getUpper (E : Engine) (s : RecState) : RecState × Option Expr :=
  match s.upper with
  | none => (s, none)
  | some e =>
    if s.ics = [] then (setFirstSol { s with upper := some (E.rename e) }, some (E.rename e))
    else match s.evUpper with
      | some v => (setFirstSol s, some v)
      | none =>
          let v := E.rename (E.onIC s.rhs s.info s.ics e)
          (setFirstSol { s with evUpper := some v }, some v)

/-- `first_valid_index_for_solution()` (src/Recurrence.inlines.hh:140-149). -/
def firstValidForSolution (s : RecState) : Option Nat :=
  if s.exact = none ∧ s.lower = none ∧ s.upper = none then none else some s.firstSol

/-- Does `verify_exact_solution`, `verify_lower_bound`, `verify_upper_bound` throw
`std::logic_error` (src/verify.cc:1280-1284, 1328-1356)? -/
def verifyThrows (s : RecState) : Option BoundKind → Bool
  | none => s.exact.isNone
  | some .lower => s.exact.isNone && s.lower.isNone
  | some .upper => s.exact.isNone && s.upper.isNone

/-! ### Evaluation -/

/-- Result of an evaluation. -/
inductive EvalResult where
  | value (e : Expr)
  | invalidArgument
  | logicError
  | unsupported
  deriving DecidableEq

/-- `check_number_for_evaluation` (src/Recurrence.cc:285-354): `none` is "passes".  Simplification:
the number is an integer. -/
def checkNumber (s : RecState) (x : ℤ) : Option EvalResult :=
  if x < 0 then some .invalidArgument
  else match s.info.ty with
    | .linConst =>
        if x < (if s.info.first + 1 ≥ s.info.order then s.info.first + 1 - s.info.order else 0 : ℕ)
            ∧ (s.ics.find? (fun p => p.1 = x.toNat)).isNone then some .invalidArgument else none
    | .linVar =>
        if x < (if s.info.first + 1 ≥ s.info.order then s.info.first + 1 - s.info.order else 0 : ℕ)
            ∧ (s.ics.find? (fun p => p.1 = x.toNat)).isNone then some .invalidArgument else none
    | .orderZero =>
        if x ≤ (s.info.first : ℤ) ∧ (s.ics.find? (fun p => p.1 = x.toNat)).isNone then
          some .invalidArgument else none
    | .weighted =>
        if x ≤ (s.info.first : ℤ) ∧ (s.ics.find? (fun p => p.1 = x.toNat)).isNone then
          some .invalidArgument else none
    | _ => some .unsupported

/-- `evaluate(kind, x)` (src/Recurrence.cc:355-417), `q` being the query of the kind asked for. -/
def evaluate (q : RecState → RecState × Option Expr) (s : RecState) (x : ℤ) :
    RecState × EvalResult :=
  match q s with
  | (s', none) => (s', .logicError)
  | (s', some e) =>
    match checkNumber s' x with
    | some r => (s', r)
    | none =>
      if s'.info.ty = .orderZero then (s', .value (substitute (.sym "n") (.num x) e))
      else if x ≤ (maxIC s' : ℤ) then (s', .value (getIC s' x.toNat))
      else (s', .value (substitute (.sym "n") (.num x) e))

/-- The loop `for (i = begin; i < end; ++i) *oi++ = evaluate(kind, i)`
(src/Recurrence.inlines.hh:198-212): the values output so far and the exception that stopped it,
if any. -/
def evalRangeLoop (q : RecState → RecState × Option Expr) : Nat → RecState → ℤ →
    RecState × List Expr × Option EvalResult
  | 0, s, _ => (s, [], none)
  | k + 1, s, i =>
    match evaluate q s i with
    | (s', .value v) =>
        let r := evalRangeLoop q k s' (i + 1)
        (r.1, v :: r.2.1, r.2.2)
    | (s', bad) => (s', [], some bad)

/-- `evaluate_exact_solution(begin, end, oi)` and its two analogues
(src/Recurrence.inlines.hh:198-260). -/
def evalRange (q : RecState → RecState × Option Expr) (s : RecState) (b e : ℤ) :
    RecState × List Expr × Option EvalResult :=
  if b > e then (s, [], some .invalidArgument) else evalRangeLoop q (e - b).toNat s b

/-! ### Copying -/

/-- Copy constructor (src/Recurrence.inlines.hh:72-92): `evaluated_*` are default-initialised. -/
def copy (y : RecState) : RecState := { y with evExact := none, evLower := none, evUpper := none }

/-- `operator=` (src/Recurrence.inlines.hh:94-116): `evaluated_*` of the target are kept. -/
def assign (t y : RecState) : RecState :=
  { y with evExact := t.evExact, evLower := t.evLower, evUpper := t.evUpper }

end RecState
end Purrs
