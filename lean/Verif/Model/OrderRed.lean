import Verif.Model.Expr

/-!
# Model of the order reduction (src/finite_order.cc, src/Recurrence.cc)

For recurrences whose decrements have a common divisor `g > 1`.  `n` is the name of `Recurrence::n`, `r` the
name of the symbol standing for `mod(n, g)`.
-/

namespace Purrs.OrderRed

open Purrs

/-- The number in the sum which is the argument of an `x` function (src/finite_order.cc:130-135). -/
def xDecrement : Expr → ℚ
  | .add [.num q, _] => q
  | .add [_, .num q] => q
  | _ => 0

/-- `rewrite_factor` (src/finite_order.cc:123-150): sums and products are returned unchanged. -/
def rewriteFactor (n r : String) (g : ℕ) : Expr → Expr
  | .pow b e => powE (rewriteFactor n r g b) (rewriteFactor n r g e)
  | .fn f l =>
    if f = .x then .fn .x [addE (.sym n) (.num (xDecrement (l.headD (.num 0)) / g))]
    else .fn f (l.map fun a => rewriteFactor n r g a)
  | .binder k i lo up body =>
    .binder k (rewriteFactor n r g i) (rewriteFactor n r g lo) (rewriteFactor n r g up)
      (rewriteFactor n r g body)
  | .sym s => if s = n then addE (mulE (.num g) (.sym n)) (.sym r) else .sym s
  | e => e

/-- `rewrite_term` (src/finite_order.cc:155-166). -/
def rewriteTerm (n r : String) (g : ℕ) (e : Expr) : Expr :=
  match e with
  | .mul l =>
    if l.length > 1 then l.foldr (fun a acc => mulE acc (rewriteFactor n r g a)) (.num 1)
    else rewriteFactor n r g e
  | e => rewriteFactor n r g e

/-- `write_reduced_order_recurrence` (src/finite_order.cc:635-667), the right hand side and the
inhomogeneous term (second component, starting from zero as in src/Recurrence.cc:428). -/
def writeReduced (n r : String) (g : ℕ) (rhs : Expr) : Expr × Expr :=
  let step := fun (a : Expr) (st : Expr × Expr) =>
    let tmp := rewriteTerm n r g a
    (addE st.1 tmp, if hasXOf (.sym n) tmp then st.2 else addE st.2 tmp)
  match rhs with
  | .add l => if l.length > 1 then l.foldr step (.num 0, .num 0) else step rhs (.num 0, .num 0)
  | rhs => step rhs (.num 0, .num 0)

/-- The coefficients of the reduced recurrence (src/finite_order.cc:663-666; the vector has
`coefficients.size() / g + 1` elements, src/Recurrence.cc:426-427). -/
def newCoefficients {α : Type} [Zero α] (g : ℕ) (co : List α) : List α :=
  (List.range co.length).foldr (fun i nc => if i % g = 0 then nc.set (i / g) (co.getD i 0) else nc)
    (List.replicate (co.length / g + 1) 0)

/-- `mod(n, gcd_among_decrements)` (src/Recurrence.cc:425). -/
def modE (n : String) (g : ℕ) : Expr := .fn .mod [.sym n, .num g]

/-- The new argument of an `x` function, whose argument is asserted to be a number
(src/finite_order.cc:712-716). -/
def comeBackArg (m : Expr) (g : ℕ) : Expr → Expr
  | .num q => addE (.num (g * q)) m
  | e => e

/-- `come_back_to_original_variable` (src/finite_order.cc:690-737); `m` is the expression
`mod(n, gcd_among_decrements)`. -/
def comeBack (n r : String) (m : Expr) (g : ℕ) : Expr → Expr
  | .add l => l.foldr (fun a acc => addE acc (comeBack n r m g a)) (.num 0)
  | .mul l => l.foldr (fun a acc => mulE acc (comeBack n r m g a)) (.num 1)
  | .pow b e => powE (comeBack n r m g b) (comeBack n r m g e)
  | .fn f l =>
    if f = .x then .fn .x [comeBackArg m g (l.headD (.num 0))]
    else .fn f (l.map fun a => comeBack n r m g a)
  | .binder k i lo up body =>
    .binder k (comeBack n r m g i) (comeBack n r m g lo) (comeBack n r m g up) (comeBack n r m g body)
  | .sym s =>
    if s = n then mulE (.num (1 / g)) (subE (.sym n) m) else if s = r then m else .sym s
  | e => e

/-- `theta` of `write_expanded_solution` (src/finite_order.cc:794). -/
def thetaE (g : ℕ) : Expr := mulE (mulE (.num 2) (.const "Pi")) (.num (1 / g))

/-- `root_of_unity` (src/finite_order.cc:806, 837). -/
def rootE (g j : ℕ) : Expr :=
  addE (.fn .cos [mulE (.num j) (thetaE g)]) (mulE (.const "I") (.fn .sin [mulE (.num j) (thetaE g)]))

/-- `to_sub_in_solution` (src/finite_order.cc:792-814).  The test `root_of_unity != 1` skips exactly
`j = gcd_among_decrements`, for which GiNaC evaluates `cos(2 Pi) + I sin(2 Pi)` to `1`. -/
def toSubE (n : String) (g : ℕ) : Expr :=
  addE ((List.range g).foldl (fun acc (i : ℕ) =>
      if i + 1 ≠ g then
        addE acc (mulE (mulE (rootE g (i + 1)) (powE (subE (.num 1) (rootE g (i + 1))) (.num (-1))))
          (powE (rootE g (i + 1)) (.sym n)))
      else acc) (.num 0))
    (.num (1 / 2 * ((g : ℚ) - 1)))

/-- `initial_condition` (src/finite_order.cc:820-846). -/
def icE (n : String) (g h : ℕ) : Expr :=
  (List.range g).foldl (fun acc (i : ℕ) =>
    let tmp := (List.range g).foldl (fun t (j : ℕ) =>
      addE t (powE (rootE g (j + 1)) (subE (.sym n) (.num ((i + h * g : ℕ) : ℚ))))) (.num 0)
    addE acc (mulE (mulE tmp (.fn .x [.num ((i + h * g : ℕ) : ℚ)])) (.num (1 / g)))) (.num 0)

/-- The split of the solution in the part with the initial conditions and the rest
(src/finite_order.cc:769-785).  When the solution is not a sum the whole of it is `term_with_ic`. -/
def splitIC : Expr → Expr × Expr
  | .add l => l.foldr (fun a st => if hasX a then (addE st.1 a, st.2) else (st.1, addE st.2 a))
      (.num 0, .num 0)
  | e => (e, .num 0)

/-- `write_expanded_solution` (src/finite_order.cc:766-868) without the final
`simplify_ex_for_output`; `order` is the order of the original recurrence. -/
def writeExpanded (n : String) (order g : ℕ) (sol : Expr) : Expr :=
  let st := splitIC sol
  let term := (List.range (order / g)).foldr (fun (h : ℕ) t =>
    substitute (.fn .x [addE (modE n g) (.num ((h * g : ℕ) : ℚ))]) (icE n g h) t) st.1
  let term := substitute (modE n g) (toSubE n g) term
  let rest := substitute (modE n g) (toSubE n g) st.2
  addE term rest

end Purrs.OrderRed
