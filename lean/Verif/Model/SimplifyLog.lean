import Verif.Model.SimplifyPow
import Verif.Model.IntUtil

/-!
# Logarithms: `src/simplify.cc:1212-1642` and `2016-2019`

`factorize_base_arg_log`, `logarithm_of_product`, `apply_elementary_prop`,
`is_perfect_power`, `prepare_simpl_power_in_logarithm`, `simpl_quotient_of_logs`,
`simplify_logarithm_in_expanded_ex` and `simplify_logarithm`.
(`simpl_power_in_logarithm`, src/simplify.cc:1310-1324, is never called.)

Simplifications:
* GiNaC's `expand`, `numer` and `denom` are parameters, `simplify_powers` is the model of
  `Model/SimplifyPow.lean` with its own parameters;
* the functions call each other without a bound on the depth: the model has a number
  `fuel` of nested calls of `simplify_logarithm_in_expanded_ex`, beyond which an
  expression is returned unchanged;
* a product such as `log_factors` that is only built, tested for its number of factors
  and taken apart again is the list of its factors;
* `PURRS::apply` builds the application without evaluating it.
-/

namespace Purrs.SimplifyLog

/-- The operations that are not modelled. -/
structure Ops where
  /-- `Expr::expand` (GiNaC). -/
  expand : Expr → Expr
  /-- `Expr::numerator` (src/Expr.inlines.hh:500-503, GiNaC `numer`). -/
  numer : Expr → Expr
  /-- `Expr::denominator` (src/Expr.inlines.hh:505-508, GiNaC `denom`). -/
  denom : Expr → Expr
  /-- The parameters of `simplify_powers`. -/
  P : SimplifyPow.Ops

/-- `log(e)` (GiNaC): `log(1) = 0` and `log(exp(q)) = q` are evaluated. -/
def lg : Expr → Expr
  | .num q => if q = 1 then .num 0 else .fn .log [.num q]
  | .fn .exp [.num q] => .num q
  | e => .fn .log [e]

/-- The argument of a logarithm (`is_the_log_function`, src/Expr.inlines.hh:760-763). -/
def logArg : Expr → Option Expr
  | .fn .log [a] => some a
  | _ => none

/-- The argument of the logarithm in `1 / log(.)` (src/simplify.cc:1513-1514). -/
def invLogArg : Expr → Option Expr
  | .pow (.fn .log [a]) (.num q) => if q = -1 then some a else none
  | _ => none

/-- The loop of `factorize_base_arg_log` (src/simplify.cc:1222-1226) over the pairs
`i > 0`, from the last to the first: the product of the bases, or `none` if an exponent is
different from the first one. -/
def commonBase (p : ℕ × ℕ) (l : List (ℕ × ℕ)) : Option ℕ :=
  l.foldr (fun q acc => acc.bind fun b => if q.2 = p.2 then some (b * q.1) else none) (some p.1)

/-- `factorize_base_arg_log` (src/simplify.cc:1212-1229).  (For one pair the loop does nothing, so the case
`exponents.size() == 1` is not written separately.) -/
def factorizeLog (base : ℤ) (exponent : Expr) : Expr :=
  match partialFactor base with
  | [] => lg (powE (.num base) exponent)
  | p :: l =>
    match commonBase p l with
    | none => lg (powE (.num base) exponent)
    | some b => mulE (mulE exponent (.num p.2)) (lg (.num b))

/-- One factor in `logarithm_of_product` (src/simplify.cc:1236-1241). -/
def logFactor (rec : Expr → Expr) (f : Expr) : Expr :=
  match f with
  | .pow b x => rec (lg (.pow b x))
  | .num q => rec (lg (.num q))
  | f => lg f

/-- `logarithm_of_product` (src/simplify.cc:1231-1243). -/
def logOfProduct (rec : Expr → Expr) (l : List Expr) : Expr :=
  l.foldr (fun f acc => addE acc (logFactor rec f)) (.num 0)

/-- The case of a number in `apply_elementary_prop` (src/simplify.cc:1287-1303). -/
def elemNum (q : ℚ) (all : Bool) : Expr :=
  if q.den = 1 ∧ 0 < q.num then factorizeLog q.num (.num 1)
  else if all ∧ q.den ≠ 1 then
    if 0 < q.num then subE (factorizeLog q.num (.num 1)) (factorizeLog q.den (.num 1))
    else subE (.num q.num) (factorizeLog q.den (.num 1))
  else lg (.num q)

/-- The case of a power in `apply_elementary_prop` (src/simplify.cc:1268-1286). -/
def elemPow (b x : Expr) : Expr :=
  match b with
  | .num q =>
    if q.den = 1 then factorizeLog q.num x
    else subE (factorizeLog q.num x) (factorizeLog q.den x)
  | b => mulE x (lg b)

/-- The argument after `simplify_powers` (src/simplify.cc:1260-1264). -/
def elemArg (O : Ops) (n : String) (a : Expr) : Expr :=
  match a with
  | .pow b x => SimplifyPow.simplifyPowers O.P n (.pow b x) true
  | a => a

/-- `apply_elementary_prop(log(a), all)` (src/simplify.cc:1258-1308). -/
def elem (O : Ops) (n : String) (rec : Expr → Expr) (a : Expr) (all : Bool) : Expr :=
  match elemArg O n a with
  | .pow b x => elemPow b x
  | .num q => elemNum q all
  | .mul l => if all then logOfProduct rec l else lg (.mul l)
  | a => lg a

/-- The first loop of `is_perfect_power` (src/simplify.cc:1337-1344), from `i` on: `none`
if the loop has not ended after `fuel` rounds, `some none` if it is left by `break`. -/
def upward (c a : ℚ) : ℕ → ℕ → Option (Option ℤ)
  | 0, _ => none
  | fuel + 1, i =>
    if a ^ (i : ℤ) = c then some (some i)
    else if 1 < a ∧ c < a ^ (i : ℤ) then some none
    else if a < 1 ∧ a ^ (i : ℤ) < c then some none
    else upward c a fuel (i + 1)

/-- The second loop (src/simplify.cc:1345-1352), from `-i` on. -/
def downward (c a : ℚ) : ℕ → ℕ → Option (Option ℤ)
  | 0, _ => none
  | fuel + 1, i =>
    if a ^ (-(i : ℤ)) = c then some (some (-(i : ℤ)))
    else if 1 < a ∧ a ^ (-(i : ℤ)) < c then some none
    else if a < 1 ∧ c < a ^ (-(i : ℤ)) then some none
    else downward c a fuel (i + 1)

/-- `is_perfect_power(c, a, b)` (src/simplify.cc:1331-1356): `b`, or `none` if it returns
`false`; the outer `Option` is the end of the loops. -/
def isPerfectPower (fuel : ℕ) (c a : ℚ) : Option (Option ℤ) :=
  if a = 1 ∧ c ≠ 1 then some none
  else (upward c a fuel 1).bind fun r =>
    match r with
    | some b => some (some b)
    | none => downward c a fuel 1

/-- `pwr` where an integer power of a product is the product of the powers (GiNaC). -/
def pwrI (b x : Expr) : Expr :=
  match b, x with
  | .mul l, .num q =>
    if q.den = 1 then l.foldl (fun acc f => mulE acc (powE f (.num q))) (.num 1) else powE (.mul l) (.num q)
  | b, x => powE b x

/-- One factor of the exponent (src/simplify.cc:1380-1387). -/
def expFactor (el : Expr → Expr) (f : Expr) : Expr :=
  match f with
  | .fn .log [a] => el a
  | .pow (.fn .log [a]) y => pwrI (el a) y
  | f => f

/-- `exponent_simpl` (src/simplify.cc:1376-1393); `el` is `apply_elementary_prop(log(.), false)`. -/
def expSimpl (el : Expr → Expr) (x : Expr) : Expr :=
  match x with
  | .mul l => l.foldr (fun f acc => mulE acc (expFactor el f)) (.num 1)
  | .fn .log [a] => el a
  | x => x

/-- Is the factor a logarithm that becomes the base (src/simplify.cc:1402-1404)?  Then its argument. -/
def moveArg (n : String) (baseNum : Bool) (f : Expr) : Option Expr :=
  match logArg f with
  | some a => if has (.sym n) a || (baseNum && !isNum a) then some a else none
  | none => none

/-- The loop for the first property (src/simplify.cc:1400-1414) on the factors in the order in which they
are visited: `arg_factor_log` and `rem`.  The second logarithm ends the loop. -/
def scanFirst (n : String) (baseNum : Bool) : List Expr → Expr → Expr → Expr × Expr
  | [], arg, rem => (arg, rem)
  | f :: l, arg, rem =>
    match moveArg n baseNum f with
    | some a => if arg = .num 1 then scanFirst n baseNum l (mulE arg a) rem else (arg, rem)
    | none => scanFirst n baseNum l arg (mulE rem f)

/-- The first property (src/simplify.cc:1395-1419): the new base and the new exponent. -/
def firstProp (n : String) (base x : Expr) : Expr × Expr :=
  match x with
  | .mul l =>
    let r := scanFirst n (isNum base) l.reverse (.num 1) (.num 1)
    if r.1 = .num 1 then (base, .mul l) else (r.1, mulE r.2 (lg base))
  | x => (base, x)

/-- `1 / log(a)` with a number `a` (src/simplify.cc:1446-1449). -/
def invNum (f : Expr) : Option ℚ :=
  match invLogArg f with
  | some (.num q) => some q
  | _ => none

/-- The loop for the second and third properties (src/simplify.cc:1433-1461) on the factors in the order in
which they are visited: `arg_log_num`, `arg_log_den` and `rem`, or `none` if `stop_simplification` is set. -/
def scanSecond : List Expr → Expr → ℚ → Expr → Option (Expr × ℚ × Expr)
  | [], c, a, rem => some (c, a, rem)
  | f :: l, c, a, rem =>
    match logArg f with
    | some b => if c = .num 1 then scanSecond l b a rem else none
    | none =>
      match invNum f with
      | some q => if a = 1 then scanSecond l c q rem else none
      | none => scanSecond l c a (mulE rem f)

/-- The second and third properties (src/simplify.cc:1421-1465): the result, if they apply. -/
def secondProp (fuel : ℕ) (q : ℚ) (l : List Expr) : Option Expr :=
  match scanSecond l.reverse (.num 1) 1 (.num 1) with
  | none => none
  | some (c, a, rem) =>
    if c ≠ .num 1 ∧ a ≠ 1 then
      match isPerfectPower fuel q a with
      | some (some b) => some (powE c (mulE (.num b) rem))
      | _ => none
    else none

/-- `Napier` (src/simplify.cc:43). -/
def napier : Expr := .fn .exp [.num 1]

/-- Is the factor `log(.)` or `1 / log(.)` (src/simplify.cc:1474-1476)? -/
def isLogOrInv (f : Expr) : Bool := (logArg f).isSome || (invLogArg f).isSome

/-- The case of Napier's number (src/simplify.cc:1466-1482). -/
def napierProp (x : Expr) : Option Expr :=
  match x with
  | .fn .log [a] => some a
  | .mul l =>
    match (l.reverse.filter isLogOrInv).foldl mulE (.num 1) with
    | .fn .log [a] => some (powE a ((l.reverse.filter fun f => !isLogOrInv f).foldl mulE (.num 1)))
    | _ => none
  | _ => none

/-- The shortcuts of `prepare_simpl_power_in_logarithm` (src/simplify.cc:1421-1483). -/
def shortcut (fuel : ℕ) (b x : Expr) : Option Expr :=
  match b, x with
  | .num q, .mul l => if 0 < q then secondProp fuel q l else none
  | b, x => if b = napier then napierProp x else none

/-- `prepare_simpl_power_in_logarithm` (src/simplify.cc:1372-1486).  `pfuel` bounds the loops of
`is_perfect_power`, see `C91_terminates`. -/
def prepare (O : Ops) (n : String) (pfuel : ℕ) (rec : Expr → Expr) (base exponent : Expr) : Expr :=
  let r := firstProp n base (expSimpl (fun a => elem O n rec a false) exponent)
  match shortcut pfuel r.1 r.2 with
  | some e => e
  | none => powE (rec r.1) (rec r.2)

/-- The test of `simpl_quotient_of_logs` (src/simplify.cc:1534-1535). -/
def reciprocal (O : Ops) (a b : Expr) : Bool := O.numer a = O.denom b && O.numer b = O.denom a

/-- The logarithms, the inverses of logarithms (with their arguments) and the product of the other factors
(src/simplify.cc:1499-1519), the factors being visited from the last to the first. -/
def splitLogs (l : List Expr) : List Expr × List Expr × Expr :=
  (l.reverse.filterMap logArg, l.reverse.filterMap invLogArg,
    (l.reverse.filter fun f => !isLogOrInv f).foldl mulE (.num 1))

/-- `1 / log(a)`. -/
def invLog (a : Expr) : Expr := .pow (.fn .log [a]) (.num (-1))

/-- The loop for several logarithms (src/simplify.cc:1525-1562), on the logarithms and inverse logarithms from
the last to the first: the product `e_simplified` and the inverse logarithms that are left. -/
def pairLogs (O : Ops) : List Expr → List Expr → Expr → Expr × List Expr
  | [], inv, s => (s, inv)
  | a :: l, [], s => pairLogs O l [] (mulE s (.fn .log [a]))
  | a :: l, b :: inv, s =>
    pairLogs O l inv (if reciprocal O a b then mulE s (.num (-1)) else mulE s (mulE (.fn .log [a]) (invLog b)))

/-- The product of the inverse logarithms (in the original order). -/
def invProd (inv : List Expr) : Expr := (inv.reverse.map invLog).foldl mulE (.num 1)
/-- The product of the logarithms. -/
def logProd (logs : List Expr) : Expr := (logs.reverse.map fun a => Expr.fn .log [a]).foldl mulE (.num 1)

/-- `simpl_quotient_of_logs` (src/simplify.cc:1495-1582).  The lists of `splitLogs` are reversed operand lists,
so that their heads are the operands with the highest index, which are the ones that the code takes. -/
def quotientOfLogs (O : Ops) (l : List Expr) : Expr :=
  match splitLogs l with
  | ([], inv, s) => mulE s (invProd inv)
  | (logs, [], s) => mulE s (logProd logs)
  | ([a], [b], s) =>
    if reciprocal O a b then mulE s (.num (-1)) else mulE (mulE s (.fn .log [a])) (invLog b)
  | ([a], b :: inv, s) =>
    if reciprocal O a b then mulE (mulE s (.num (-1))) (invProd inv)
    else mulE (mulE s (.fn .log [a])) (invProd inv)
  | (logs, inv, s) =>
    let r := pairLogs O logs inv s
    mulE r.1 (invProd r.2)

/-- One call of `simplify_logarithm_in_expanded_ex` (src/simplify.cc:1601-1642) with `rec` for the inner
calls. -/
def step (O : Ops) (n : String) (pfuel : ℕ) (rec : Expr → Expr) : Expr → Expr
  | .add l => l.foldr (fun a acc => addE acc (rec a)) (.num 0)
  | .mul l =>
    match quotientOfLogs O l with
    | .mul m => m.foldr (fun a acc => mulE acc (rec a)) (.num 1)
    | e => rec e
  | .pow b x => prepare O n pfuel rec b x
  | .fn .log [a] => elem O n rec a true
  | .fn f l => .fn f (l.map rec)
  | .binder k i lo up body => .binder k (rec i) (rec lo) (rec up) (rec body)
  | e => e

/-- `simplify_logarithm_in_expanded_ex` (src/simplify.cc:1601-1642). -/
def simp (O : Ops) (n : String) (pfuel : ℕ) : ℕ → Expr → Expr
  | 0, e => e
  | fuel + 1, e => step O n pfuel (simp O n pfuel fuel) e

/-- `simplify_logarithm` (src/simplify.cc:2016-2019). -/
def simplifyLogarithm (O : Ops) (n : String) (pfuel fuel : ℕ) (e : Expr) : Expr :=
  O.expand (simp O n pfuel fuel (O.expand e))

end Purrs.SimplifyLog
