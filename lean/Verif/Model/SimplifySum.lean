import Verif.Model.EvalRules
import Verif.Model.Decomp
import Verif.Model.SumPoly

/-!
# Model of the simplification of symbolic sums (src/simplify.cc:1643-1956 and 2021-2030)

Simplifications: GiNaC's `expand()`, the coefficients of a polynomial and Gosper's algorithm (modelled on its own, in
`Verif.Model.Gosper`) are parameters; new symbols are given by their names.  The lower limit of a sum is a number and its index a
symbol (`sum_eval`, src/Expr.cc:333-370).  When a sum is rebuilt from its simplified arguments it is not evaluated again.
-/

namespace Purrs.SimplifySum

open EvalRules (outFactors loopUp sumEval)

/-- The parameters: `expand()`, the coefficients of a polynomial in a symbol, `gosper_algorithm(m, t, lower, upper, solution)`
(`none` for `false`), the new symbol of src/simplify.cc:1747 and `sum_variable` of src/simplify.cc:1902-1904. -/
structure Ops where
  expand : Expr → Expr
  coeffs : String → Expr → List Expr
  gosper : String → Expr → ℚ → Expr → Option Expr
  k : String
  v : String

/-- `Sum_Simplification_Kind` (src/simplify.hh). -/
inductive Kind where
  | compute
  | rewriteUpper
  deriving DecidableEq, Repr

/-- The sum up to `s` of src/simplify.cc:1694-1702 and 1684-1691: the factors without the index are taken out. -/
def outSum (i : String) (lo : ℚ) (up body : Expr) : Expr :=
  if (outFactors i body).1 = .num 1 then mulE (outFactors i body).2 (addE (subE up (.num lo)) (.num 1))
  else mulE (outFactors i body).2 (.binder .sum (.sym i) (.num lo) up (outFactors i body).1)

/-- `split_sum` for the upper limit `s + c` (src/simplify.cc:1693-1710); nothing is added to `e_rewritten`, which starts as `0`,
if `c` is not an integer. -/
def splitShift (i : String) (lo : ℚ) (s : String) (c : ℚ) (body : Expr) : Expr :=
  if c.den = 1 then
    if 0 < c then
      loopUp (fun r j => addE r (substitute (.sym i) (addE (.sym s) (.num j)) body)) c 1 (addE (.num 0) (outSum i lo (.sym s) body))
    else
      loopUp (fun r j => subE r (substitute (.sym i) (addE (.sym s) (.num j)) body)) 0 (c + 1)
        (addE (.num 0) (outSum i lo (.sym s) body))
  else .num 0

/-- `split_sum` (src/simplify.cc:1669-1711). -/
def splitSum (i : String) (lo : ℚ) (up body : Expr) : Expr :=
  match up with
  | .add [.num c, .sym s] => splitShift i lo s c body
  | .add [.sym s, .num c] => splitShift i lo s c body
  | up => outSum i lo up body

/-- The upper limit as `m + h` with a symbol `m` and an integer `h` (src/simplify.cc:1720-1736). -/
def upperParts : Expr → Option (String × ℚ)
  | .sym m => some (m, 0)
  | .add [.sym m, .num h] => if h.den = 1 then some (m, h) else none
  | .add [.num h, .sym m] => if h.den = 1 then some (m, h) else none
  | _ => none

section
variable (O : Ops)

/-- The sum of one polynomial times an exponential (src/simplify.cc:1747-1762): the closed form of the sum from `0` to `m`, with
`m + h` for `m`, minus the terms below the lower limit. -/
def polyTerm (i m : String) (h lo : ℚ) (t : Expr × Expr × Expr) : Expr :=
  (List.range ⌈lo⌉.toNat).foldl (fun s (j : ℕ) =>
      subE s (mulE (substitute (.sym O.k) (.num j) (substitute (.sym i) (.sym O.k) t.2.1)) (powE t.1 (.num j))))
    (substitute (.sym m) (addE (.sym m) (.num h)) (sumPolyTimesExponentials O.k m (O.coeffs i t.2.1) t.1))

/-- The polynomial part (src/simplify.cc:1744-1764). -/
def polyPart (i m : String) (h lo : ℚ) (dec : List (Expr × Expr × Expr)) : Expr :=
  if dec.any fun t => t.2.1 ≠ .num 0 then dec.foldr (fun t acc => addE acc (polyTerm O i m h lo t)) (.num 0) else .num 0

/-- The part computed by Gosper's algorithm, added once for every base (src/simplify.cc:1765-1774); `none` if it fails. -/
def gosperPart (i m : String) (lo : ℚ) (up body : Expr) (dec : List (Expr × Expr × Expr)) (acc : Expr) : Option Expr :=
  dec.foldr (fun _ acc => acc.bind fun a => (O.gosper m (substitute (.sym i) (.sym m) body) lo up).map fun g => addE a g) (some acc)

/-- `compute_sum` (src/simplify.cc:1713-1776). -/
def computeSum (i : String) (lo : ℚ) (up body : Expr) : Expr :=
  match upperParts up with
  | none => .binder .sum (.sym i) (.num lo) up body
  | some (m, h) =>
    if (expPolyDecomposition i (O.expand body)).any fun t => t.2.2 ≠ .num 0 then
      (gosperPart O i m lo up body (expPolyDecomposition i (O.expand body))
        (polyPart O i m h lo (expPolyDecomposition i (O.expand body)))).getD (.binder .sum (.sym i) (.num lo) up body)
    else polyPart O i m h lo (expPolyDecomposition i (O.expand body))

/-- `e.is_a_add() && e.nops() == 2` (src/simplify.cc:1851). -/
def isAdd2 : Expr → Bool
  | .add [_, _] => true
  | _ => false

/-- The sum is split in as many sums as the summand has addends (src/simplify.cc:1832-1840); the constructor of the sum evaluates
it. -/
def splitAddends (rec : Expr → Option Expr) (i : String) (lo : ℚ) (up : Expr) (l : List Expr) : Option Expr :=
  l.foldr (fun a acc => acc.bind fun s => ((sumEval i (.num lo) up a).bind rec).map fun r => addE s r) (some (.num 0))

/-- The sum is kept, its arguments are simplified (src/simplify.cc:1855-1859). -/
def rebuild (rec : Expr → Option Expr) (k : BinderKind) (i lo up body : Expr) : Option Expr :=
  (rec lo).bind fun lo' => (rec up).bind fun up' => (rec body).map fun body' => .binder k i lo' up' body'

/-- A sum whose summand is not a sum or is not to be computed (src/simplify.cc:1845-1859). -/
def onSum (kind : Kind) (rec : Expr → Option Expr) (i : String) (lo : ℚ) (up body : Expr) : Option Expr :=
  if hasXOf (.sym i) body = false ∧ kind = .compute then some (computeSum O i lo up body)
  else if isAdd2 up = true ∧ kind = .rewriteUpper then some (splitSum i lo up body)
  else rebuild rec .sum (.sym i) (.num lo) up body

/-- One step of `simplify_sum_in_expanded_ex` (src/simplify.cc:1807-1865). -/
def step (kind : Kind) (rec : Expr → Option Expr) (e : Expr) : Option Expr :=
  match e with
  | .add l => l.foldr (fun a acc => acc.bind fun s => (rec a).map fun r => addE s r) (some (.num 0))
  | .mul l => l.foldr (fun a acc => acc.bind fun s => (rec a).map fun r => mulE s r) (some (.num 1))
  | .pow b x => (rec b).bind fun b' => (rec x).map fun x' => powE b' x'
  | .fn g l => (l.mapM rec).map fun m => .fn g m
  | .binder .sum (.sym i) (.num lo) up (.add l) =>
      if kind = .compute then splitAddends rec i lo up l else onSum O kind rec i lo up (.add l)
  | .binder .sum (.sym i) (.num lo) up body => onSum O kind rec i lo up body
  | .binder k i lo up body => rebuild rec k i lo up body
  | e => some e

/-- `simplify_sum_in_expanded_ex` (src/simplify.cc:1807-1865) with a bound on the depth of the recursion. -/
def simplifySum (kind : Kind) : ℕ → Expr → Option Expr
  | 0, _ => none
  | f + 1, e => step O kind (simplifySum kind f) e

/-- `simplify_sum` (src/simplify.cc:2021-2025). -/
def simplifySumTop (kind : Kind) (f : ℕ) (e : Expr) : Option Expr := (simplifySum O kind f (O.expand e)).map O.expand

/-- A symbolic sum from 1 to `n`, with its index and summand (src/simplify.cc:1912-1913, 1922-1923, 1929-1930). -/
def sum1n (n : String) : Expr → Option (String × Expr)
  | .binder .sum (.sym i) (.num lo) (.sym m) body => if lo = 1 ∧ m = n then some (i, body) else none
  | _ => none

/-- An addend that is collected: coefficient, index, summand (src/simplify.cc:1908-1936). -/
def collectable (n : String) : Expr → Option (ℚ × String × Expr)
  | .mul [.binder k i lo up body, .num c] => (sum1n n (.binder k i lo up body)).map fun p => (c, p)
  | .mul [.num c, .binder k i lo up body] => (sum1n n (.binder k i lo up body)).map fun p => (c, p)
  | e => (sum1n n e).map fun p => (1, p)

/-- The preliminary check for one addend (src/simplify.cc:1880-1895). -/
def looksLikeSum (n : String) : Expr → Bool
  | .mul [.binder .sum _ _ _ _, .num _] => true
  | .mul [.num _, .binder .sum _ _ _ _] => true
  | e => (sum1n n e).isSome

/-- The state of the loop over the addends: number of sums found, their merged summand, the other addends
(src/simplify.cc:1900-1942). -/
def collectLoop (n : String) (l : List Expr) : ℕ × Expr × Expr :=
  l.foldr (fun a st =>
    match collectable n a with
    | some (c, i, body) => (st.1 + 1, addE st.2.1 (mulE (.num c) (substitute (.sym i) (.sym O.v) body)), st.2.2)
    | none => (st.1, st.2.1, addE st.2.2 a)) (0, .num 0, .num 0)

/-- `simplify_collect_sums_in_expanded_ex` (src/simplify.cc:1871-1956). -/
def collectSums (n : String) (f : ℕ) (e : Expr) : Option Expr :=
  match e with
  | .add l =>
      if l.any fun a => looksLikeSum n a then
        if 1 < (collectLoop O n l).1 then
          ((sumEval O.v (.num 1) (.sym n) (O.expand (collectLoop O n l).2.1)).bind fun s => simplifySum O .compute f s).map fun r =>
            addE (collectLoop O n l).2.2 r
        else some e
      else some e
  | e => some e

/-- `simplify_collect_sums` (src/simplify.cc:2027-2030). -/
def collectSumsTop (n : String) (f : ℕ) (e : Expr) : Option Expr := (collectSums O n f (O.expand e)).map O.expand

end

end Purrs.SimplifySum
