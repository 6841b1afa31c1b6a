import Verif.Model.Decomp
import Verif.Model.Verify

/-!
# The expressions built by `solve_linear_finite_order` (src/compute_exact_solution.cc:648-756, 757-1113)

Model of the solver at the level of expressions: the ansatz with undetermined coefficients, the substitution into the
recurrence, the linear systems and the substitution of their solutions.  `Model/Exact.lean` has the values.

Simplifications: GiNaC's `expand`, `degree`, `coeff`, `lsolve`, `collect`, the automatic evaluation of the difference
`recurrence_rhs - inhomogeneous_term`, and the parts of PURRS with a model of their own (the simplifications, `sum_poly_alt`,
`compute_product`, `solve_constant_coeff_order_1`, `blackboard.rewrite`) are parameters.  `none` stands for `TOO_COMPLEX` and for a
failing assertion.
-/

namespace Purrs.SolveLin

open Verify (xAt xDec subX)
open WeightedAvg (shiftN divE)

/-- The operations that are parameters. -/
structure Ops where
  /-- `expand()`. -/
  expand : Expr → Expr
  /-- The simplifications at the beginning of `exp_poly_decomposition` (src/ep_decomp.cc:140-146). -/
  epSimp : Expr → Expr
  /-- `simplify_ex_for_output(·, false)`, `simplify_binomials_factorials_exponentials`, `simplify_logarithm`. -/
  simp : Expr → Expr
  /-- The automatic evaluation by GiNaC. -/
  auto : Expr → Expr
  /-- `degree(n)`. -/
  degree : Expr → ℕ
  /-- `coeff(n, i)`. -/
  coeff : Expr → ℕ → Expr
  /-- `lsolve(equations, unknowns)`: the right-hand sides of the solutions, `none` for the empty list. -/
  lsolve : List (Expr × Expr) → List String → Option (List Expr)
  /-- `sum_poly_alt(·, n, n)`. -/
  sumPoly : Expr → Expr
  /-- The new symbols: the `i`-th unknown of the `j`-th system. -/
  unknown : ℕ → ℕ → String
  /-- `blackboard.rewrite`. -/
  rw : Expr → Expr
  /-- `collect`. -/
  collect : List Expr → Expr → Expr
  /-- `simplify_binomials_factorials_exponentials(compute_product(index, first, ·))` of the coefficient. -/
  product : ℕ → Expr → Expr
  /-- `solve_constant_coeff_order_1` for the root 1, the first valid index and the inhomogeneous term. -/
  sumOrder1 : ℕ → Expr → Expr

/-- The generic polynomial (src/compute_exact_solution.cc:677-685); its coefficients are the unknowns `u`. -/
def genericPoly (n : String) (u : ℕ → String) (deg : ℕ) : Expr :=
  (List.range (deg + 1)).foldl (fun q (i : ℕ) => addE q (mulE (powE (.sym n) (.num i)) (.sym (u i)))) (.num 0)

/-- The expected form of the special solution (src/compute_exact_solution.cc:677-687). -/
def ansatz (n : String) (u : ℕ → String) (deg : ℕ) (base : Expr) : Expr :=
  mulE (genericPoly n u deg) (powE base (.sym n))

/-- The expected solution is substituted into the recurrence (src/compute_exact_solution.cc:689-696). -/
def substituted (n : String) (homo : Expr) (order : ℕ) (poly base q : Expr) : Expr :=
  (List.range (order + 1)).foldl (fun diff d => subX (xDec n d) (substitute (.sym n) (shiftN n (-(d : ℚ))) q) diff)
    (subE (subE (.fn .x [.sym n]) homo) (mulE poly (powE base (.sym n))))

/-- `diff` (src/compute_exact_solution.cc:689-712). -/
def diffE (O : Ops) (n : String) (homo : Expr) (order : ℕ) (poly base q : Expr) : Expr :=
  O.expand (O.simp (O.expand (mulE (substituted n homo order poly base q) (powE base (negE (.sym n))))))

/-- The values for the unknowns: 0 for those that are left undetermined (src/compute_exact_solution.cc:730-738). -/
def determined (u : ℕ → String) (sol : List Expr) : List Expr :=
  sol.zipIdx.map fun p => if p.1 ≠ .sym (u p.2) then p.1 else .num 0

/-- The number of unknowns left undetermined (src/compute_exact_solution.cc:730-738). -/
def removed (u : ℕ → String) (sol : List Expr) : ℕ := (sol.zipIdx.filter fun p => p.1 = .sym (u p.2)).length

/-- The unknowns are replaced, from the last to the first (src/compute_exact_solution.cc:731-738, 1082-1085). -/
def backSub (u : ℕ → String) (vals : List Expr) (e : Expr) : Expr :=
  (List.range vals.length).foldr (fun i e => substitute (.sym (u i)) (vals.getD i (.num 0)) e) e

/-- The system for the coefficients (src/compute_exact_solution.cc:714-720): the equations are prepended. -/
def specialSystem (O : Ops) (deg : ℕ) (diff : Expr) : List (Expr × Expr) :=
  ((List.range (deg + 1)).map fun i => (O.coeff diff i, Expr.num 0)).reverse

/-- `compute_special_solution` (src/compute_exact_solution.cc:661-745).  When `lsolve` finds nothing the loop does not run and the
unknowns stay in the result; `none` if the assertion on the number of undetermined unknowns fails. -/
def special (O : Ops) (n : String) (u : ℕ → String) (homo : Expr) (order : ℕ) (poly base : Expr) (mult : ℕ) : Option Expr :=
  if base = .num 1 ∧ homo = xDec n 1 then some (O.sumPoly poly)
  else
    let deg := O.degree poly + mult
    let q := ansatz n u deg base
    match O.lsolve (specialSystem O deg (diffE O n homo order poly base q)) ((List.range (deg + 1)).map u) with
    | some sol => if removed u sol = mult then some (backSub u (determined u sol) q) else none
    | none => if mult = 0 then some q else none

/-- The multiplicity of the base among the roots (src/compute_exact_solution.cc:1016-1019). -/
def multOf (O : Ops) (roots : List (Expr × ℕ)) (base : Expr) : ℕ :=
  roots.foldr (fun r mult => if O.rw r.1 = base then r.2 else mult) 0

/-- The sum of the special solutions (src/compute_exact_solution.cc:1013-1023); `j` numbers the systems. -/
def specialSum (O : Ops) (n : String) (homo : Expr) (order : ℕ) (roots : List (Expr × ℕ)) :
    ℕ → List (Expr × Expr × Expr) → Expr → Option Expr
  | _, [], sol => some sol
  | j, t :: ts, sol =>
    (special O n (O.unknown (j + 1)) homo order t.2.1 t.1 (multOf O roots t.1)).bind fun s =>
      specialSum O n homo order roots (j + 1) ts (addE sol s)

/-- `general_solution` (src/compute_exact_solution.cc:1050-1063). -/
def generalE (n : String) (u : ℕ → String) : List (Expr × ℕ) → ℕ → Expr → Expr
  | [], _, g => g
  | r :: rs, h, g =>
    let st := (List.range r.2).foldl (fun (st : ℕ × Expr) (j : ℕ) =>
      (st.1 + 1, addE st.2 (mulE (mulE (.sym (u st.1)) (powE r.1 (.sym n))) (powE (.sym n) (.num j))))) (h, g)
    generalE n u rs st.1 st.2

/-- The system for the constants (src/compute_exact_solution.cc:1065-1072): the equations are prepended. -/
def constantsSystem (n : String) (f num : ℕ) (g : Expr) : List (Expr × Expr) :=
  ((List.range num).map fun i => (subE (xAt (f + i)) (substitute (.sym n) (.num (f + i : ℕ)) g), Expr.num 0)).reverse

/-- The constants of the general solution are computed from the initial conditions (src/compute_exact_solution.cc:1050-1088). -/
def constants (O : Ops) (n : String) (f : ℕ) (roots : List (Expr × ℕ)) (sol : Expr) : Option Expr :=
  let g := generalE n (O.unknown 0) roots 0 sol
  let num := (roots.map Prod.snd).sum
  (O.lsolve (constantsSystem n f num g) ((List.range num).map (O.unknown 0))).map fun vals => backSub (O.unknown 0) vals g

/-- The solution for order 1 from a special solution (src/compute_exact_solution.cc:1042-1048). -/
def order1 (n : String) (f : ℕ) (a1 sol : Expr) : Expr :=
  addE (mulE (subE (xAt f) (substitute (.sym n) (.num f) sol)) (powE a1 (subE (.sym n) (.num f)))) sol

/-- The result is collected for the output (src/compute_exact_solution.cc:1101-1110). -/
def finish (O : Ops) (f order : ℕ) (e : Expr) : Expr :=
  match e with
  | .add l => O.collect ((List.range order).reverse.map fun i => xAt (f + i)) (.add l)
  | e => e

/-- The new method (src/compute_exact_solution.cc:1007-1092) for the terms `ts` of the decomposition. -/
def newMethod (O : Ops) (n : String) (homo : Expr) (f order : ℕ) (a1 : Expr) (roots : List (Expr × ℕ))
    (ts : List (Expr × Expr × Expr)) : Option Expr :=
  (specialSum O n homo order roots 0 ts (.num 0)).bind fun s =>
    let sol := O.simp s
    if order = 1 then some (O.rw (order1 n f a1 sol)) else (constants O n f roots sol).map O.rw

/-- The decomposition of the inhomogeneous term (src/compute_exact_solution.cc:894-895). -/
def decomposition (O : Ops) (n : String) (inhom : Expr) : List (Expr × Expr × Expr) :=
  expPolyDecomposition n (O.epSimp (O.expand inhom))

/-- Constant coefficients (src/compute_exact_solution.cc:881-1092); `old` is the result of the old method, used if the inhomogeneous
term is not a sum of polynomials times exponentials. -/
def solveConst (O : Ops) (n : String) (rhs inhom : Expr) (f order : ℕ) (a1 : Expr) (roots : List (Expr × ℕ)) (old : Option Expr) :
    Option Expr :=
  let ts := decomposition O n inhom
  if ts.any fun t => t.2.2 ≠ .num 0 then old
  else (newMethod O n (O.auto (subE rhs inhom)) f order a1 roots ts).map (finish O f order)

/-- `solve_variable_coeff_order_1` (src/compute_exact_solution.cc:194-224) and what follows in `solve_linear_finite_order`
(src/compute_exact_solution.cc:1036-1039, 1093-1110). -/
def solveVar1 (O : Ops) (inhom : Expr) (f : ℕ) (a1 : Expr) : Expr :=
  let pf := O.product (f + 1) a1
  finish O f 1 (O.rw (O.simp (mulE pf (addE (O.sumOrder1 f (divE inhom pf)) (xAt f)))))

/-- `solve_linear_finite_order` (src/compute_exact_solution.cc:757-1113): `roots` are the roots of the characteristic equation, if they
are found (they matter only for constant coefficients). -/
def solveLinear (O : Ops) (n : String) (rhs inhom : Expr) (f order : ℕ) (constCoeff : Bool) (a1 : Expr)
    (roots : Option (List (Expr × ℕ))) (old : Option Expr) : Option Expr :=
  if order = 0 then some (O.simp inhom)
  else if constCoeff then roots.bind fun rs => solveConst O n rhs inhom f order a1 rs old
  else if order = 1 then some (solveVar1 O inhom f a1)
  else none

end Purrs.SolveLin
