import Verif.Model.Expr
import Verif.Model.IntUtil

/-!
# Model of the non-linear recurrences (src/rr_classifier.cc, src/Recurrence.cc, src/util.cc)

`n` is the name of `Recurrence::n`.

Simplifications: `simplify_ex_for_input` and `simplify_logarithm`, assumed here not to change the value (see C52), are omitted;
a negative number among the factors, for which the code uses the logarithm of an auxiliary symbol, is kept as it
is (the theorems are about positive factors); the solver of the linear recurrence is a parameter.
-/

namespace Purrs.NonLinear

open Purrs

/-- `Mode_Subs` (src/util.hh). -/
inductive Mode where
  | exponent | argumentLog
  deriving DecidableEq

/-- `log(a) / log(k)`. -/
def logE (k a : Expr) : Expr := mulE (.fn .log [a]) (powE (.fn .log [k]) (.num (-1)))

/-- What replaces `x(l)` (src/util.cc:627-636). -/
def xTo (k : Expr) (m : Mode) (l : List Expr) : Expr :=
  match m with
  | .exponent => powE k (.fn .x l)
  | .argumentLog => logE k (.fn .x l)

/-- `substitute_x_function(e, k, mode)` (src/util.cc:609-651). -/
def substX (k : Expr) (m : Mode) : Expr → Expr
  | .add l => l.foldr (fun a acc => addE acc (substX k m a)) (.num 0)
  | .mul l => l.foldr (fun a acc => mulE acc (substX k m a)) (.num 1)
  | .pow b e => powE (substX k m b) (substX k m e)
  | .fn f l =>
    if f = .x then xTo k m l
    else .fn f (l.map fun a => substX k m a)
  | .binder b i lo up body =>
    .binder b (substX k m i) (substX k m lo) (substX k m up) (substX k m body)
  | e => e

/-- `lcm` of two numbers: the product when one of them is not an integer (GiNaC, see the comment at
src/rr_classifier.cc:648-649). -/
def lcmNum (a b : ℚ) : ℚ :=
  if a.den = 1 ∧ b.den = 1 then ((Int.lcm a.num b.num : ℕ) : ℚ) else a * b

/-- `common_exponent` (src/rr_classifier.cc:636-664). -/
def commonExponent (l : List Expr) : ℚ :=
  l.foldr (fun a ce => match a with
    | .pow (.fn .x _) (.num q) => lcmNum q ce
    | _ => ce) 1

/-- What `rewrite_non_linear_recurrence` stores: `coeff_simple_non_linear_rec()`, `base_exp_log()` and the
right-hand side of the associated linear recurrence. -/
structure NL where
  coeff : ℚ
  base : Expr
  rhs : Expr

/-- The sum of the logarithms of the factors (src/rr_classifier.cc:720-732, 741-752); `k` is the base used for
the rewriting.  For Napier's number the code writes `log(f)` without the denominator `log(k)`, which is 1. -/
def logSum (k : Expr) (napier : Bool) (tmp : Expr) : Expr :=
  (factors tmp).foldr (fun f acc => addE acc (if napier then .fn .log [f] else logE k f)) (.num 0)

/-- The special case `x(n) = c x(n-1)^a` (src/rr_classifier.cc:674-718, 759-768): `c` and `a`. -/
def simpleForm (n : String) : Expr → Option (ℚ × ℚ)
  | .mul [.num c, .pow (.fn .x [.add [.sym m, .num d]]) (.num a)] => if m = n ∧ d = -1 then some (c, a) else none
  | .mul [.pow (.fn .x [.add [.sym m, .num d]]) (.num a), .num c] => if m = n ∧ d = -1 then some (c, a) else none
  | .pow (.fn .x [.add [.sym m, .num d]]) (.num a) => if m = n ∧ d = -1 then some (1, a) else none
  | _ => none

/-- Is the special case a domain error (src/rr_classifier.cc:684-686, 704-706)? -/
def simpleDomainError (c a : ℚ) : Bool := decide (c < 0) && decide (a.den ≠ 1)

/-- The general case of a product (src/rr_classifier.cc:718-754). -/
def rewriteMul (l : List Expr) : NL :=
  let ce := commonExponent l
  if ce = 1 then
    ⟨0, .const "Napier", logSum (.const "Napier") true (substX (.const "Napier") .exponent (.mul l))⟩
  else ⟨0, .num ce, logSum (.num |ce|) false (substX (.num |ce|) .exponent (.mul l))⟩

/-- The associated linear recurrence of the special case (src/rr_classifier.cc:689-698, 711-720); `a ≠ -1`. -/
def simpleAssoc (n : String) (c a : ℚ) : Expr :=
  addE (mulE (.num a) (.fn .x [.add [.sym n, .num (-1)]])) (logE (.num |a|) (.num c))

/-- The second case, `x(n) = x(arg)^a` (src/rr_classifier.cc:770-786): the linear right-hand side; the base is
`a`. -/
def rewritePow (a : ℚ) (arg : Expr) : NL := ⟨0, .num a, mulE (.num a) (.fn .x [arg])⟩

/-- The solution of `x(n) = c x(n-1)^a` (src/Recurrence.cc:528-530). -/
def simpleSolution (n : String) (c a : ℚ) : Expr :=
  mulE (powE (.num c) (mulE (subE (powE (.num a) (.sym n)) (.num 1)) (powE (subE (.num a) (.num 1)) (.num (-1)))))
    (powE (.fn .x [.num 0]) (powE (.num a) (.sym n)))

/-- The same with the initial condition `x(k) = h`, `k ≥ first_valid_index + order`
(src/Recurrence.cc:957-966). -/
def simpleOnIC (n : String) (c a : ℚ) (k : ℕ) (h : Expr) : Expr :=
  substitute (.sym n) (subE (.sym n) (.num k)) (substitute (.fn .x [.num 0]) h (simpleSolution n c a))

/-- The solution of the non-linear recurrence from the one of the linear recurrence
(src/Recurrence.cc:551-560). -/
def backSolution (base sol : Expr) : Expr :=
  if sol = .num 0 then .num 0 else substX base .argumentLog (powE base sol)

end Purrs.NonLinear
