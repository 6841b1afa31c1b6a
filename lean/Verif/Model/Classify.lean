import Verif.Model.Expr
import Verif.Model.Recurrence

/-!
# Model of the classification of recurrences (src/rr_classifier.cc)

`n` is the name of `Recurrence::n`.

Simplifications: the numbers of the model are rational, hence `has_non_rational_numbers()` is never true; the
preliminary simplifications of the right-hand side and `find_domain_in_N` are not part of this module; the treatment
of a non-linear term and of a sum (`Verif.Model.NonLinear`, `Verif.Model.WeightedAvg`) is only signalled; of a
`std::map` only the bindings matter, not their order; failing `assert`s are not modelled.
-/

namespace Purrs.Classify

open Purrs

/-- `x(n)`. -/
def xn (n : String) : Expr := .fn .x [.sym n]

/-- `get_constant_decrement` (src/rr_classifier.cc:58-78), `has_constant_decrement` (80-99). -/
def getDecrement (n : String) : Expr → Option ℚ
  | .add [a, b] =>
    let d : Option Expr := if a = .sym n then some b else if b = .sym n then some a else none
    match d with
    | some (.num q) => if q.den = 1 then some (-q) else none
    | _ => none
  | _ => none

/-- `get_constant_divisor` (src/rr_classifier.cc:106-125). -/
def getDivisor (n : String) : Expr → Option ℚ
  | .mul [a, b] =>
    let d : Option Expr := if a = .sym n then some b else if b = .sym n then some a else none
    match d with
    | some (.num q) => if q.den ≠ 1 ∧ 0 < q then some (1 / q) else none
    | _ => none
  | _ => none

/-- `Kinds_Of_Term` (src/rr_classifier.cc:483-509). -/
inductive Kind where
  | nested | legal | indeterminate | unsolvable | linear
  deriving DecidableEq

/-- `x_function_in_powers_or_functions` (src/rr_classifier.cc:521-553). -/
def kindOf (n : String) : Expr → Kind
  | .fn f l => if l.any (hasXOf (.sym n)) then (if f = .x then .nested else .legal) else .linear
  | .binder _ i lo up body =>
    if hasXOf (.sym n) i || hasXOf (.sym n) lo || hasXOf (.sym n) up || hasXOf (.sym n) body then .legal else .linear
  | .pow b e =>
    if hasXOf (.sym n) b then (if b = xn n then .indeterminate else .legal)
    else if hasXOf (.sym n) e then (if e = xn n then .unsolvable else .legal)
    else .linear
  | _ => .linear

/-- Is it `x(a)` with `n` in `a`? -/
def isXn (n : String) : Expr → Bool
  | .fn .x [a] => has (.sym n) a
  | _ => false

/-- One iteration of the loop of `find_non_linear_term` (src/rr_classifier.cc:573-592): the flag "nested found, loop
left", the kind found so far, `found_function_x`. -/
def nlStep (n : String) (factor : Expr) (st : Bool × Kind × Bool) : Bool × Kind × Bool :=
  if st.1 then st
  else if kindOf n factor = .nested then (true, .nested, st.2.2)
  else
    let term := if kindOf n factor = .legal then .legal else st.2.1
    if isXn n factor then (if st.2.2 then (false, .legal, true) else (false, term, true)) else (false, term, st.2.2)

/-- `find_non_linear_term` (src/rr_classifier.cc:555-595). -/
def findNonLinear (n : String) : Expr → Kind
  | .mul l => (l.foldr (nlStep n) (false, .linear, false)).2.1
  | e => kindOf n e

/-- Why the classification of an addend stops (`Classifier_Status`). -/
inductive Fail where
  | negative | null | nonInteger | huge | malformed | tooComplex | indeterminate | unsolvable
  deriving DecidableEq

/-- The variables of `classify` updated by `classification_summand`; `ty = .unknown` is `NOT_CLASSIFIED_YET`. -/
structure St where
  ty : RType
  inhom : Expr
  order : ℕ
  coeffs : List Expr
  gcdDec : ℕ
  homog : List (ℚ × Expr)

/-- The result of `classification_summand`: the new values, failure, or the two classes treated elsewhere. -/
inductive Res where
  | ok (st : St)
  | fail (f : Fail)
  | nonLinear
  | weighted

/-- `insert_coefficients` (src/rr_classifier.cc:467-480). -/
def insertCoeff (c : Expr) (i : ℕ) (cs : List Expr) : List Expr :=
  let cs' := cs ++ List.replicate (i - cs.length) (.num 0)
  if i = cs'.length then cs' ++ [c] else cs'.set i (addE (cs'.getD i (.num 0)) c)

/-- `std::map::insert`: no effect if the key is present. -/
def mapInsert (d : ℚ) (c : Expr) (m : List (ℚ × Expr)) : List (ℚ × Expr) :=
  if m.any (fun p => p.1 = d) then m else m ++ [(d, c)]

/-- `Recurrence::compute_order` (src/rr_classifier.cc:1017-1033): the index and the new order. -/
def computeOrder (maxSize : ℕ) (d : ℚ) (order : ℕ) : Except Fail (ℕ × ℕ) :=
  if d < 0 then .error .negative
  else if 9223372036854775807 ≤ d ∨ (maxSize : ℚ) ≤ d then .error .huge
  else
    let index := d.num.toNat
    .ok (index, if order = 0 ∨ order < index then index else order)

/-- The new `gcd_among_decrements` (src/rr_classifier.cc:1128-1131, 1245-1248). -/
def newGcd (k g index : ℕ) : ℕ := if k = 0 then index else Nat.gcd g index

/-- Is it a sum/product with two operands? -/
def isAdd2 : Expr → Bool
  | .add [_, _] => true
  | _ => false
/-- `e.is_a_mul() && e.nops() == 2`. -/
def isMul2 : Expr → Bool
  | .mul [_, _] => true
  | _ => false

/-- Nothing but inhomogeneous terms so far. -/
def St.fresh (st : St) : Bool := st.ty = .unknown ∨ st.ty = .orderZero
/-- `is_linear_finite_order()` (src/Recurrence.inlines.hh:308-313). -/
def St.linear (st : St) : Bool := st.ty = .orderZero ∨ st.ty = .linConst ∨ st.ty = .linVar

/-- An addend that is put in the inhomogeneous part (src/rr_classifier.cc:1153-1157, 1209-1213, 1351-1355). -/
def addInhom (e : Expr) (st : St) : St :=
  { st with inhom := addE st.inhom e, ty := if st.ty = .unknown then .orderZero else st.ty }

/-- The addend `x(arg)` (src/rr_classifier.cc:1104-1157). -/
def singleX (n : String) (maxSize k : ℕ) (arg : Expr) (st : St) : Res :=
  if arg = .sym n then .fail .null
  else if !has (.sym n) arg then .fail .malformed
  else if hasParameters n arg then .fail .tooComplex
  else if isAdd2 arg then
    match getDecrement n arg with
    | none => .fail .nonInteger
    | some d =>
      match computeOrder maxSize d st.order with
      | .error f => .fail f
      | .ok (index, order) =>
        if !st.fresh && st.ty = .functional then .fail .tooComplex
        else .ok { st with
          ty := if st.fresh then .linConst else st.ty
          order := order
          gcdDec := newGcd k st.gcdDec index
          coeffs := insertCoeff (.num 1) index st.coeffs }
  else if isMul2 arg then
    match getDivisor n arg with
    | none => .fail .tooComplex
    | some d =>
      if !st.fresh && st.linear then .fail .tooComplex
      else .ok { st with
        ty := if st.fresh then .functional else st.ty
        homog := mapInsert d (.num 1) st.homog }
  else .fail .tooComplex

/-- A sum whose upper limit contains `n` and whose summand contains `x` of the index
(src/rr_classifier.cc:1160-1162, 1273-1275). -/
def isWeightedSum (n : String) : Expr → Bool
  | .binder .sum i _ up body => has (.sym n) up && hasXOf i body
  | _ => false

/-- An addend that is not a product (src/rr_classifier.cc:1100-1214). -/
def single (n : String) (maxSize k : ℕ) (a : Expr) (st : St) : Res :=
  match a with
  | .fn .x [arg] => singleX n maxSize k arg st
  | a => if isWeightedSum n a then (if st.fresh then .weighted else .fail .tooComplex) else .ok (addInhom a st)

/-- The local variables of the loop over the factors (src/rr_classifier.cc:1216-1220), with the state. -/
structure Loop where
  noX : Expr
  hasX : Bool
  hasN : Bool
  index : ℕ
  divisor : ℚ
  st : St

/-- The loop can be left. -/
inductive LRes where
  | ok (l : Loop)
  | fail (f : Fail)
  | weighted

/-- The factor `x(arg)` (src/rr_classifier.cc:1225-1271). -/
def factorX (n : String) (maxSize k : ℕ) (arg : Expr) (l : Loop) : LRes :=
  if arg = .sym n then .fail .null
  else if !has (.sym n) arg then .fail .malformed
  else if hasParameters n arg then .fail .tooComplex
  else if isAdd2 arg then
    match getDecrement n arg with
    | none => .fail .nonInteger
    | some d =>
      match computeOrder maxSize d l.st.order with
      | .error f => .fail f
      | .ok (index, order) =>
        if l.st.ty = .functional then .fail .tooComplex
        else .ok { l with
          hasX := true, index := index
          st := { l.st with order := order, gcdDec := newGcd k l.st.gcdDec index } }
  else if isMul2 arg then
    match getDivisor n arg with
    | none => .fail .tooComplex
    | some d =>
      if !l.st.fresh && l.st.linear then .fail .tooComplex
      else .ok { l with
        hasX := true, divisor := d
        st := { l.st with ty := if l.st.fresh then .functional else l.st.ty } }
  else .fail .tooComplex

/-- One iteration of the loop (src/rr_classifier.cc:1221-1333). -/
def factorStep (n : String) (maxSize k : ℕ) (factor : Expr) : LRes → LRes
  | .ok l =>
    match factor with
    | .fn .x [arg] => factorX n maxSize k arg l
    | factor =>
      if isWeightedSum n factor then (if l.st.fresh then .weighted else .fail .tooComplex)
      else .ok { l with noX := mulE l.noX factor, hasN := l.hasN || has (.sym n) factor }
  | r => r

/-- After the loop (src/rr_classifier.cc:1334-1356). -/
def finishProduct (l : Loop) : St :=
  if l.hasX then
    if l.st.ty = .functional then { l.st with homog := mapInsert l.divisor l.noX l.st.homog }
    else
      { l.st with
        coeffs := insertCoeff l.noX l.index l.st.coeffs
        ty := if l.st.ty = .linVar then .linVar else if l.hasN then .linVar else .linConst }
  else addInhom l.noX l.st

/-- A product (src/rr_classifier.cc:1215-1356). -/
def product (n : String) (maxSize k : ℕ) (fs : List Expr) (st : St) : Res :=
  match fs.foldr (factorStep n maxSize k) (.ok ⟨.num 1, false, false, 0, 0, st⟩) with
  | .ok l => .ok (finishProduct l)
  | .fail f => .fail f
  | .weighted => .weighted

/-- `Recurrence::classification_summand` (src/rr_classifier.cc:1043-1358). -/
def summand (n : String) (maxSize k : ℕ) (a : Expr) (st : St) : Res :=
  match findNonLinear n a with
  | .legal => .nonLinear
  | .nested => .fail .malformed
  | .indeterminate => .fail .indeterminate
  | .unsolvable => .fail .unsolvable
  | .linear =>
    match a with
    | .mul fs => product n maxSize k fs st
    | a => single n maxSize k a st

/-- The loop over the addends (src/rr_classifier.cc:1499-1525), from the `k`-th addend on. -/
def loopFrom (n : String) (maxSize : ℕ) : ℕ → List Expr → St → Res
  | _, [], st => .ok st
  | k, a :: as, st =>
    match summand n maxSize k a st with
    | .ok st' => loopFrom n maxSize (k + 1) as st'
    | r => r

/-- The values before the loop (src/rr_classifier.cc:1457-1484). -/
def initSt : St := ⟨.unknown, .num 0, 0, [], 0, []⟩

/-- `Recurrence::classify` (src/rr_classifier.cc:1445-1568) up to the search of the domain. -/
def classify (n : String) (maxSize : ℕ) (rhs : Expr) : Res := loopFrom n maxSize 0 (addends rhs) initSt

end Purrs.Classify
