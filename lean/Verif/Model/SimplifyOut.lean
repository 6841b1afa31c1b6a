import Verif.Model.SimplifyPow
import Verif.Model.SimplifyRoot

/-!
# Simplification for output: `src/simplify.cc:790-910`, `979-1031` and `1967-1970`

`manip_factor`, `simplify_expanded_ex_for_output` and `simplify_ex_for_output`.

Simplifications:
* GiNaC's `expand` and the operations of `Model/SimplifyPow.lean` are parameters;
* the functions call each other without a bound on the depth: the number `fuel` bounds the
  nested calls, `none` is its exhaustion (or a number that the model of radicals cannot
  represent, see `Model/SimplifyRoot.lean`);
* `PURRS::apply` builds the application without evaluating it; `exp(0) = 1`.
-/

namespace Purrs.SimplifyOut

open SimplifyPow (Ops simplifyPowers collectBaseExponent)
open SimplifyRoot (redProd reduceProduct)

/-- `exp(e)` (GiNaC). -/
def expE : Expr → Expr
  | .num q => if q = 0 then .num 1 else .fn .exp [.num q]
  | e => .fn .exp [e]

/-- A power with simplified base and exponent (src/simplify.cc:803-812 and 999-1008). -/
def powOut (O : Ops) (n : String) (input : Bool) (b x : Expr) : Expr :=
  match b, x with
  | .num q, .num z => redProd q z 1 1
  | b, x =>
    match O.expand (powE b x) with
    | .pow b' x' => simplifyPowers O n (.pow b' x') input
    | t => t

/-- The factors that are powers (src/simplify.cc:797-813). -/
def powStep (O : Ops) (n : String) (input : Bool) (rec : Expr → Option Expr) (f : Expr) : Option Expr :=
  match f with
  | .pow b x => (rec (O.expand b)).bind fun b' => (rec (O.expand x)).map fun x' => powOut O n input b' x'
  | f => some f

/-- The first loop of `manip_factor` (src/simplify.cc:794-816). -/
def powers (O : Ops) (n : String) (input : Bool) (rec : Expr → Option Expr) (l : List Expr) : Option Expr :=
  (l.mapM (powStep O n input rec)).map fun m => m.foldr (fun a acc => mulE acc a) (.num 1)

/-- A function with simplified arguments (src/simplify.cc:828-841, 848-858 and 1016-1027). -/
def fnStep (O : Ops) (rec : Expr → Option Expr) (f : Expr) : Option Expr :=
  match f with
  | .fn g l => (l.mapM fun a => rec (O.expand a)).map fun m => .fn g m
  | .binder k i lo up body =>
      (rec (O.expand i)).bind fun i' => (rec (O.expand lo)).bind fun lo' => (rec (O.expand up)).bind fun up' =>
        (rec (O.expand body)).map fun body' => .binder k i' lo' up' body'
  | f => some f

/-- `is_a_function`. -/
def isFn : Expr → Bool
  | .fn _ _ => true
  | .binder .. => true
  | _ => false

/-- The product of the factors with (`true`) or without (`false`) the property, visited from the last to the first. -/
def part (p : Expr → Bool) (want : Bool) (l : List Expr) : Expr :=
  l.foldr (fun a acc => if p a = want then mulE acc a else acc) (.num 1)

/-- The second part of `manip_factor` (src/simplify.cc:818-859). -/
def functions (O : Ops) (rec : Expr → Option Expr) (e : Expr) : Option Expr :=
  match e with
  | .mul l => (l.mapM (fnStep O rec)).map fun m => mulE (part isFn true m) (part isFn false m)
  | e => fnStep O rec e

/-- The argument of `exp`. -/
def expArg : Expr → Option Expr
  | .fn .exp [a] => some a
  | _ => none

/-- The exponentials are collected (src/simplify.cc:861-875). -/
def mergeExp (e : Expr) : Expr :=
  match e with
  | .mul l =>
    mulE (expE (l.foldr (fun f acc => match expArg f with | some a => addE acc a | none => acc) (.num 0)))
      (part (fun f => (expArg f).isSome) false l)
  | e => e

/-- `reduce_product` on a term (src/simplify.cc:882-885 and 891). -/
def reduceTerm (t : Expr) : Option Expr :=
  match t with
  | .mul m => reduceProduct m
  | t => some t

/-- The products of irrational numbers (src/simplify.cc:876-891). -/
def reduceAll (e : Expr) : Option Expr :=
  match e with
  | .add l => (l.mapM reduceTerm).map fun m => m.foldr (fun a acc => addE acc a) (.num 0)
  | e => reduceTerm e

/-- `collect_base_exponent` on a term (src/simplify.cc:899-902, 908 and 1012-1013). -/
def collectTerm (O : Ops) (n : String) (t : Expr) : Expr :=
  match t with
  | .mul m => collectBaseExponent O n m
  | t => t

/-- The powers with equal bases or exponents (src/simplify.cc:893-908). -/
def collectAll (O : Ops) (n : String) (e : Expr) : Expr :=
  match e with
  | .add l => l.foldr (fun a acc => addE acc (collectTerm O n a)) (.num 0)
  | e => collectTerm O n e

/-- `manip_factor` (src/simplify.cc:790-911). -/
def manipFactor (O : Ops) (n : String) (input : Bool) (rec : Expr → Option Expr) (l : List Expr) : Option Expr :=
  (powers O n input rec l).bind fun e1 => (functions O rec e1).bind fun e2 =>
    (reduceAll (mergeExp e2)).map fun e4 => collectAll O n e4

/-- One call of `simplify_expanded_ex_for_output` (src/simplify.cc:979-1031) with `rec` for the nested calls. -/
def step (O : Ops) (n : String) (input : Bool) (rec : Expr → Option Expr) : Expr → Option Expr
  | .add l => (l.mapM fun a => rec (O.expand a)).map fun m => m.foldr (fun a acc => addE acc a) (.num 0)
  | .mul l => manipFactor O n input rec l
  | .pow b x => (powStep O n input rec (.pow b x)).map (collectTerm O n)
  | e => fnStep O rec e

/-- `simplify_expanded_ex_for_output` (src/simplify.cc:979-1031). -/
def simplifyOut (O : Ops) (n : String) (input : Bool) : ℕ → Expr → Option Expr
  | 0, _ => none
  | fuel + 1, e => step O n input (simplifyOut O n input fuel) e

/-- `simplify_ex_for_output` (src/simplify.cc:1967-1970). -/
def simplifyForOutput (O : Ops) (n : String) (input : Bool) (fuel : ℕ) (e : Expr) : Option Expr :=
  simplifyOut O n input fuel (O.expand e)

end Purrs.SimplifyOut
