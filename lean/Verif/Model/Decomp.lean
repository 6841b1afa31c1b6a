import Verif.Model.ExprLemmas

/-!
# Model of `src/ep_decomp.cc` and `src/fact_decomp.cc`

The parallel output vectors are lists of tuples.  The simplifications applied first
(`simplify_ex_for_input`, `simplify_logarithm`, ...) are not part of this model: the
functions are modelled from the simplified expression on.
-/

namespace Purrs

/-- Apply `f` to the last entry satisfying `p`, if there is one: the pattern
`for (i = size; i-- > 0; ) if (...) { position = i; found = true; break; }` followed by an
update at `position`. -/
def bumpLast {α : Type} (p : α → Bool) (f : α → α) : List α → Option (List α)
  | [] => none
  | a :: l => match bumpLast p f l with
    | some l' => some (a :: l')
    | none => if p a then some (f a :: l) else none

/-- `exp_poly_decomposition_factor` (src/ep_decomp.cc:43-70). -/
def epFactor (x : String) (base e : Expr) (st : List (Expr × Expr × Expr)) :
    List (Expr × Expr × Expr) :=
  let iso := isolatePolynomialPart x e
  let upd := fun (t : Expr × Expr × Expr) => (t.1, addE t.2.1 iso.1, addE t.2.2 iso.2)
  match bumpLast (fun t => decide (base = t.1)) upd st with
  | some st' => st'
  | none => st ++ [upd (base, .num 0, .num 0)]

/-- `power(base, x)` with a base free of `x` (src/ep_decomp.cc:80-87, 93-97). -/
def epBase (x : String) : Expr → Option Expr
  | .pow b e => if e = .sym x ∧ isScalarRep x b = true then some b else none
  | _ => none

/-- The last factor that is a proper exponential, and the other factors
(src/ep_decomp.cc:91-105). -/
def epSplit (x : String) : List Expr → Option (Expr × List Expr)
  | [] => none
  | a :: l => match epSplit x l with
    | some (b, rest) => some (b, a :: rest)
    | none => (epBase x a).map fun b => (b, l)

/-- `exp_poly_decomposition_summand` (src/ep_decomp.cc:72-113). -/
def epSummand (x : String) (e : Expr) (st : List (Expr × Expr × Expr)) :
    List (Expr × Expr × Expr) :=
  match e with
  | .mul l =>
    if l.length = 1 then epFactor x (.num 1) e st
    else match epSplit x l with
      | some (b, rest) => epFactor x b (rest.foldr (fun a acc => mulE acc a) (.num 1)) st
      | none => epFactor x (.num 1) e st
  | e => match epBase x e with
      | some b => epFactor x b (.num 1) st
      | none => epFactor x (.num 1) e st

/-- `exp_poly_decomposition` (src/ep_decomp.cc:134-159) from `e_simpl` on. -/
def expPolyDecomposition (x : String) (e : Expr) : List (Expr × Expr × Expr) :=
  match e with
  | .add l => if 1 < l.length then l.foldr (fun a st => epSummand x a st) [] else epSummand x e []
  | e => epSummand x e []

/-- Add `c` to the coefficient of `v`, making a new entry if there is none
(src/fact_decomp.cc:55-75, 126-138, 158-170). -/
def factAdd (v : ℚ) (c : Expr) (st : List (ℚ × Expr)) : List (ℚ × Expr) :=
  match bumpLast (fun t => decide (t.1 = v)) (fun t => (t.1, addE t.2 c)) st with
  | some st' => st'
  | none => st ++ [(v, addE (.num 0) c)]

/-- `factorial_decomposition_argument` (src/fact_decomp.cc:42-113) for the argument `e` of a
factorial with coefficient `c`.  In the second branch nothing is added when an entry is
found. -/
def factArgument (x : String) (e c : Expr) (st : List (ℚ × Expr)) : List (ℚ × Expr) :=
  let single := fun (_ : Unit) =>
    if e = .sym x then factAdd 1 c st
    else
      -- the loop compares `arg[i]` with `e` itself, but a new entry gets the key 0
      match bumpLast (fun t => decide (Expr.num t.1 = e))
          (fun t => (t.1, addE t.2 (.fn .factorial [c]))) st with
      | some st' => st'
      | none => st ++ [(0, addE (.num 0) (.fn .factorial [c]))]
  match e with
  | .mul l =>
    if l.length = 1 then single ()
    else
      let hasx := l.any fun a => decide (a = .sym x)
      let argNotX := l.foldr (fun a acc => if a = .sym x then acc else mulE acc a) (.num 1)
      match hasx, argNotX with
      | true, .num v =>
          if st.any fun t => decide (t.1 = v) then st else st ++ [(v, addE (.num 0) c)]
      | _, _ =>
          if st.any fun t => decide (t.1 = 0) then st
          else st ++ [(0, addE (.num 0) (mulE c (.fn .factorial [argNotX])))]
  | _ => single ()

/-- The loop over the factors of a product (src/fact_decomp.cc:143-155): the argument of its
factorial (0 if there is none) and the product of the other factors; `throws` when there
are two. -/
def factSplit : List Expr → Option (Expr × Expr)
  | [] => some (.num 0, .num 1)
  | a :: l => (factSplit l).bind fun st =>
    match a with
    | .fn .factorial [y] => if st.1 = .num 0 then some (y, st.2) else none
    | a => some (st.1, mulE st.2 a)

/-- `factorial_decomposition_summand` (src/fact_decomp.cc:115-172); `none` when it throws. -/
def factSummand (x : String) (e : Expr) (st : List (ℚ × Expr)) : Option (List (ℚ × Expr)) :=
  match e with
  | .mul l =>
    if l.length = 1 then some (factAdd 0 e st)
    else (factSplit l).map fun r =>
      if r.1 ≠ .num 0 then factArgument x r.1 r.2 st else factAdd 0 r.2 st
  | .fn .factorial [y] =>
    match y with
    | .add _ => some (factAdd 0 e st)
    | y => some (factArgument x y (.num 1) st)
  | e => some (factAdd 0 e st)

/-- `factorial_decomposition` (src/fact_decomp.cc:212-238) from the simplified expression on. -/
def factorialDecomposition (x : String) (e : Expr) : Option (List (ℚ × Expr)) :=
  match e with
  | .add l => if 1 < l.length then
      l.foldr (fun a acc => acc.bind fun st => factSummand x a st) (some [])
      else factSummand x e []
  | e => factSummand x e []

end Purrs
