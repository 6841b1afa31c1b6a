import Verif.Model.SimplifyPow

/-!
# Factorials, binomial coefficients and exponentials: `src/simplify.cc:1033-1210`, `2003-2016`

`decompose_factorial`, `rewrite_factorials_and_exponentials`, `rewrite_binomials` and
`simplify_binomials_factorials_exponentials`.

Simplifications:
* `factorial(·)` builds the application (GiNaC evaluates it at natural numbers);
* `expand` of a power whose exponent is a sum is a parameter.
-/

namespace Purrs.SimplifyFact

open SimplifyPow (quo)

/-- `factorial(e)`. -/
def factE (e : Expr) : Expr := .fn .factorial [e]

/-- `op(i).is_a_number(tmp_num) && tmp_num.is_integer()` (src/simplify.cc:1050). -/
def intNum : Expr → Option ℤ
  | .num q => if q.den = 1 then some q.num else none
  | _ => none

/-- `num` after the loop (src/simplify.cc:1048-1056); the loop starts at the last
operand. -/
def intPart : List Expr → ℤ
  | [] => 0
  | a :: l => match intNum a with
    | some z => z
    | none => intPart l

/-- `new_arg_fact` after the loop (src/simplify.cc:1048-1056). -/
def restPart : List Expr → Expr
  | [] => .num 0
  | a :: l => match intNum a with
    | some _ => restPart l
    | none => addE (restPart l) a

/-- The factors for a positive integer (src/simplify.cc:1058-1060). -/
def upFactors (a : Expr) (b : ℕ) : Expr :=
  (List.range b).foldl (fun acc (i : ℕ) => mulE acc (addE a (.num ((i : ℚ) + 1)))) (.num 1)

/-- The factors for a negative integer (src/simplify.cc:1064-1066). -/
def downFactors (a : Expr) (b : ℕ) : Expr :=
  (List.range b).foldl (fun acc (i : ℕ) => mulE acc (powE (subE a (.num (i : ℚ))) (.num (-1)))) (.num 1)

/-- `decompose_factorial` (src/simplify.cc:1041-1071) on the argument of the
factorial. -/
def decomposeFactorial : Expr → Expr
  | .add l =>
      if 0 < intPart l then mulE (factE (restPart l)) (upFactors (restPart l) (intPart l).toNat)
      else mulE (factE (restPart l)) (downFactors (restPart l) (- intPart l).toNat)
  | a => factE a

/-- The test for swapping the exponents of a nested power (src/simplify.cc:1108-1109). -/
def swapArgs : Expr → Expr → Option (ℚ × Expr × ℚ)
  | .pow (.num c) y, .num q => if isNum y then none else some (c, y, q)
  | _, _ => none

/-- `e.is_a_power() && e.arg(0).is_a_power()` (src/simplify.cc:1117). -/
def isNested : Expr → Bool
  | .pow (.pow _ _) _ => true
  | _ => false

/-- Expansion of a power whose exponent is a sum (src/simplify.cc:1122-1123). -/
def expandPow (expand : Expr → Expr) : Expr → Expr
  | .pow b (.add l) => expand (.pow b (.add l))
  | e => e

/-- The end of the power case (src/simplify.cc:1120-1123). -/
def powRest (expand : Expr → Expr) (rec : Expr → Option Expr) (b x : Expr) : Option Expr :=
  (rec b).bind fun b' => (rec x).map fun x' => expandPow expand (powE b' x')

/-- The power case (src/simplify.cc:1105-1124). -/
def powCase (expand : Expr → Expr) (rec : Expr → Option Expr) (b x : Expr) : Option Expr :=
  match swapArgs b x with
  | some (c, y, q) => (rec y).bind fun y' =>
      if isNested (powE (powE (.num c) (.num q)) y') then powRest expand rec b x
      else rec (powE (powE (.num c) (.num q)) y')
  | none => powRest expand rec b x

/-- The body of `rewrite_factorials_and_exponentials` (src/simplify.cc:1092-1142) with the
recursive calls `rec`. -/
def feStep (expand : Expr → Expr) (rec : Expr → Option Expr) : Expr → Option Expr
  | .add l => (l.mapM rec).map fun m => m.foldr (fun a acc => addE acc a) (.num 0)
  | .mul l => (l.mapM rec).map fun m => m.foldr (fun a acc => mulE acc a) (.num 1)
  | .pow b x => powCase expand rec b x
  | .fn .factorial [a] => some (decomposeFactorial a)
  | .fn f l => (l.mapM rec).map fun m => .fn f m
  | .binder k i lo up body =>
      (rec i).bind fun i' => (rec lo).bind fun lo' => (rec up).bind fun up' =>
        (rec body).map fun body' => .binder k i' lo' up' body'
  | e => some e

/-- `rewrite_factorials_and_exponentials`; the number bounds the depth of the
recursion. -/
def rewriteFE (expand : Expr → Expr) : ℕ → Expr → Option Expr
  | 0, _ => none
  | k + 1, e => feStep expand (rewriteFE expand k) e

/-! ## Binomial coefficients -/

/-- `factorial(m) / (factorial(m-k)*factorial(k))` (src/simplify.cc:1184, 1187 and 1192). -/
def quotFact (m k : Expr) : Expr := quo (factE m) (mulE (factE (subE m k)) (factE k))

/-- `pwr(-1, k)*factorial(k-num_m-1) / (factorial(-num_m-1)*factorial(k))`
(src/simplify.cc:1189-1190). -/
def negFact (m : ℚ) (k : Expr) : Expr :=
  quo (mulE (powE (.num (-1)) k) (factE (subE (subE k (.num m)) (.num 1)))) (mulE (factE (.num (-m - 1))) (factE k))

/-- The case where one of the arguments is a number (src/simplify.cc:1185-1194). -/
def binomNum (m k : Expr) : Expr :=
  match intNum m with
  | some z => if 0 ≤ z then quotFact m k else negFact z k
  | none =>
      match intNum k with
      | some z => if 0 ≤ z then quotFact m k else .fn .binom [m, k]
      | none => .fn .binom [m, k]

/-- The rule for `binom(m, k)` (src/simplify.cc:1176-1194). -/
def binomRule (m k : Expr) : Expr :=
  if !isNum m && !isNum k then quotFact m k else binomNum m k

/-- `rewrite_binomials` (src/simplify.cc:1161-1210). -/
def rewriteBinomials : Expr → Expr
  | .add l => (l.map fun a => rewriteBinomials a).foldr (fun a acc => addE acc a) (.num 0)
  | .mul l => (l.map fun a => rewriteBinomials a).foldr (fun a acc => mulE acc a) (.num 1)
  | .pow b x => powE (rewriteBinomials b) (rewriteBinomials x)
  | .fn .binom [m, k] => binomRule m k
  | .fn f l => .fn f (l.map fun a => rewriteBinomials a)
  | .binder k i lo up body =>
      .binder k (rewriteBinomials i) (rewriteBinomials lo) (rewriteBinomials up) (rewriteBinomials body)
  | e => e

/-- `simplify_binomials_factorials_exponentials` (src/simplify.cc:2002-2016). -/
def simplifyBFE (expand : Expr → Expr) (k : ℕ) (e : Expr) : Option Expr := rewriteFE expand k (rewriteBinomials e)

end Purrs.SimplifyFact
