import Verif.Model.Verify

/-!
# Steps 3 and 4 of the verification of bounds (src/verify.cc:46-95, 1226-1277)

Simplification: `simplify_ex_for_input` followed by `simplify_logarithm` is one parameter, the automatic evaluation of differences by GiNaC (which
collects equal terms) another one.
-/

namespace Purrs.Verify

open Purrs Purrs.WeightedAvg

/-- `split` (src/verify.cc:46-56): the terms with `n` and the others. -/
def splitN (n : String) (e : Expr) : Expr × Expr :=
  match e with
  | .add l => l.foldr (fun t (p : Expr × Expr) => if has (.sym n) t then (addE p.1 t, p.2) else (p.1, addE p.2 t)) (.num 0, .num 0)
  | _ => (.num 0, .num 0)

/-- `n`, or a power of `n` with a positive integer as exponent (src/verify.cc:71-74, 1263-1266). -/
def isPowN (n : String) (f : Expr) : Bool :=
  match f with
  | .sym m => m = n
  | .pow (.sym m) ex => m = n && isPosInt ex
  | _ => false

/-- The product of the other factors (src/verify.cc:67-76, 1260-1268). -/
def coeffN (n : String) (e : Expr) : Expr :=
  match e with
  | .mul l => l.foldr (fun f acc => if isPowN n f then acc else mulE acc f) (.num 1)
  | _ => .num 1

/-- Is the expression a product? -/
def isMul : Expr → Bool
  | .mul _ => true
  | _ => false

/-- The comparison of the two numbers (src/verify.cc:79-84). -/
def ineqNumbers (coeff other : Expr) (condition : ℕ) : Bool :=
  match coeff, other with
  | .num d, .num m => 0 < d ∧ m < 0 ∧ -m / d ≤ condition
  | _, _ => false

/-- `ok_inequalities` (src/verify.cc:58-91), for a sum. -/
def okInequalities (n : String) (e : Expr) (condition : ℕ) : Bool :=
  let p := splitN n e
  (p.1 = .sym n || isMul p.1) && ineqNumbers (coeffN n p.1) p.2 condition

/-- Step 3 (src/verify.cc:1226-1237): the value at the first index has the wrong sign. -/
def wrongSign (n : String) (upper : Bool) (condition : ℕ) (p : Expr) : Bool :=
  match substitute (.sym n) (.num condition) p with
  | .num q => if upper then q < 0 else 0 < q
  | _ => false

/-- `n / b` (src/verify.cc:1241-1243). -/
def nDiv (n : String) (b : ℚ) : Expr := mulE (.num (1 / b)) (.sym n)

/-- `diff` (src/verify.cc:1240-1254). -/
def diffB (simp canon : Expr → Expr) (n : String) (upper : Bool) (b : ℚ) (rhs p : Expr) : Expr :=
  let approx := simp (substitute (.fn .x [nDiv n b]) (substitute (.sym n) (nDiv n b) p) rhs)
  canon (if upper then subE p approx else subE approx p)

/-- The decision about `diff` (src/verify.cc:1256-1276). -/
def decideDiff (n : String) (condition : ℕ) (diff : Expr) : Verdict :=
  match diff with
  | .num q => if 0 ≤ q then .correct else .inconclusive
  | .mul l => match coeffN n (.mul l) with
    | .num q => if 0 < q then .correct else .inconclusive
    | _ => .inconclusive
  | .add l => if okInequalities n (.add l) condition then .correct else .inconclusive
  | _ => .inconclusive

/-- Steps 3 and 4 of `verify_bound` (src/verify.cc:1226-1277). -/
def boundRest (simp canon : Expr → Expr) (n : String) (upper : Bool) (condition : ℕ) (b : ℚ) (rhs p : Expr) : Verdict :=
  if wrongSign n upper condition p then .inconclusive else decideDiff n condition (diffB simp canon n upper b rhs p)

end Purrs.Verify
