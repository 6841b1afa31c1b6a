import Mathlib.Algebra.Field.Defs
import Mathlib.Algebra.Order.Field.Rat
import Mathlib.Algebra.BigOperators.Group.List.Basic
import Mathlib.Data.Rat.Cast.CharZero

/-!
# Expressions: syntax, semantics and the syntactic queries of `src/Expr.cc`

`PURRS::Expr` wraps a GiNaC `ex` (src/Expr.defs.hh).  The model is the tree that the
PURRS code sees through `is_a_add`, `nops`, `op`, `arg`, ....

Simplifications:
* numbers are rational (GiNaC's `numeric` also has floating point and complex ones);
* symbols and constants are identified with their names;
* GiNaC's automatic canonicalisation is modelled by the smart constructors `addE`,
  `mulE`, `powE` which flatten, fold numbers and drop neutral elements; they do not
  collect like terms nor reorder operands.  Theorems are stated for *all* trees, so
  they hold whatever (value-preserving) rearrangement GiNaC performs;
* exceptions thrown by GiNaC (`0^0`, `0^(-1)`) are not modelled.
-/

namespace Purrs

/-- The functions registered in src/Expr.cc:60-650 and the GiNaC ones that the code
treats by name; `sum` and `prod` are the `binder` constructor of `Expr`. -/
inductive Fn where
  | x | floor | sc | mod | binom | max | min
  | log | exp | sin | cos | tan | factorial
  | other (name : String)
  deriving DecidableEq, Repr

/-- `sum(index, lower, upper, summand)` or `prod(...)` (src/Expr.cc:389-399, 547-557). -/
inductive BinderKind where
  | sum | prod
  deriving DecidableEq, Repr

/-- Expression trees (GiNaC `ex` as seen by src/Expr.inlines.hh:163-420).  The children
of `binder` are the four arguments of the GiNaC functions `sum` and `prod`. -/
inductive Expr where
  | num (q : ℚ)
  | const (c : String)
  | sym (s : String)
  | add (l : List Expr)
  | mul (l : List Expr)
  | pow (b e : Expr)
  | fn (f : Fn) (args : List Expr)
  | binder (k : BinderKind) (i lo up body : Expr)
  deriving Repr

namespace Expr

mutual
/-- Structural equality test (GiNaC `is_equal`, used by `operator==`,
src/Expr.inlines.hh:305-350). -/
def beq : Expr → Expr → Bool
  | .num p, .num q => p = q
  | .const p, .const q => p = q
  | .sym p, .sym q => p = q
  | .add l, .add m => beqList l m
  | .mul l, .mul m => beqList l m
  | .pow b e, .pow b' e' => beq b b' && beq e e'
  | .fn f l, .fn g m => f = g && beqList l m
  | .binder k i a b c, .binder k' i' a' b' c' =>
     k = k' && beq i i' && beq a a' && beq b b' && beq c c'
  | _, _ => false
/-- Structural equality on argument lists. -/
def beqList : List Expr → List Expr → Bool
  | [], [] => true
  | a :: l, b :: m => beq a b && beqList l m
  | _, _ => false
end

mutual
theorem beq_iff : ∀ a b : Expr, beq a b = true ↔ a = b
  | .num _, b => by cases b <;> simp [beq]
  | .const _, b => by cases b <;> simp [beq]
  | .sym _, b => by cases b <;> simp [beq]
  | .add l, b => by cases b <;> simp [beq, beqList_iff l]
  | .mul l, b => by cases b <;> simp [beq, beqList_iff l]
  | .pow x y, b => by cases b <;> simp [beq, beq_iff x, beq_iff y]
  | .fn _ l, b => by cases b <;> simp [beq, beqList_iff l]
  | .binder k x y z w, b => by
      cases b <;> simp [beq, beq_iff x, beq_iff y, beq_iff z, beq_iff w, and_assoc]
theorem beqList_iff : ∀ a b : List Expr, beqList a b = true ↔ a = b
  | [], b => by cases b <;> simp [beqList]
  | x :: l, b => by cases b <;> simp [beqList, beq_iff x, beqList_iff l]
end

instance : DecidableEq Expr := fun a b => decidable_of_iff _ (beq_iff a b)

/-- Structural induction with membership hypotheses for argument lists. -/
@[elab_as_elim]
theorem ind {P : Expr → Prop} (num : ∀ q, P (.num q)) (const : ∀ c, P (.const c))
    (sym : ∀ s, P (.sym s))
    (add : ∀ l, (∀ a ∈ l, P a) → P (.add l)) (mul : ∀ l, (∀ a ∈ l, P a) → P (.mul l))
    (pow : ∀ b e, P b → P e → P (.pow b e)) (fn : ∀ f l, (∀ a ∈ l, P a) → P (.fn f l))
    (binder : ∀ k i a b c, P i → P a → P b → P c → P (.binder k i a b c)) : ∀ e, P e
  | .num q => num q
  | .const q => const q
  | .sym s => sym s
  | .add l => add l fun a _ => ind num const sym add mul pow fn binder a
  | .mul l => mul l fun a _ => ind num const sym add mul pow fn binder a
  | .pow b e => pow b e (ind num const sym add mul pow fn binder b)
      (ind num const sym add mul pow fn binder e)
  | .fn f l => fn f l fun a _ => ind num const sym add mul pow fn binder a
  | .binder k i a b c => binder k i a b c (ind num const sym add mul pow fn binder i)
      (ind num const sym add mul pow fn binder a) (ind num const sym add mul pow fn binder b)
      (ind num const sym add mul pow fn binder c)

end Expr

/-! ## Semantics (specification side) -/

/-- An interpretation of constants, powers and functions over a field.  `pw` is the
power function (`Real.rpow`, `Complex.cpow`, ...), which must agree with the field
power on integer exponents; `fn` interprets the function symbols (in particular the
unknown `x`); `bind` interprets `sum`/`prod` as a functional of the bounds and the
body. -/
structure Interp (K : Type) [Field K] where
  const : String → K
  pw : K → K → K
  fn : Fn → List K → K
  bind : BinderKind → K → K → (K → K) → K
  pw_int : ∀ (a : K) (z : ℤ), pw a (z : K) = a ^ z
  one_pw : ∀ a : K, pw 1 a = 1

/-- Valuation update for the bound variable of a binder (only if it is a symbol). -/
def bindIdx {K : Type} (ρ : String → K) (i : Expr) (v : K) : String → K :=
  match i with
  | .sym s => Function.update ρ s v
  | _ => ρ

/-- Value of an expression under an interpretation and a valuation of the symbols. -/
def eval {K : Type} [Field K] (I : Interp K) : (String → K) → Expr → K
  | _, .num q => (q : K)
  | _, .const c => I.const c
  | ρ, .sym s => ρ s
  | ρ, .add l => (l.map fun a => eval I ρ a).sum
  | ρ, .mul l => (l.map fun a => eval I ρ a).prod
  | ρ, .pow b e => I.pw (eval I ρ b) (eval I ρ e)
  | ρ, .fn f args => I.fn f (args.map fun a => eval I ρ a)
  | ρ, .binder k i lo up body =>
      I.bind k (eval I ρ lo) (eval I ρ up) (fun v => eval I (bindIdx ρ i v) body)

/-! ## Smart constructors: `operator+`, `operator*`, `pwr` -/

/-- `operator+(Expr, Expr)` (src/Expr.inlines.hh, GiNaC `add`). -/
def addE : Expr → Expr → Expr
  | .num p, .num q => .num (p + q)
  | .num p, e => if p = 0 then e else
      match e with
      | .add m => .add (.num p :: m)
      | e => .add [.num p, e]
  | .add l, .num q => if q = 0 then .add l else .add (l ++ [.num q])
  | e, .num q => if q = 0 then e else .add [e, .num q]
  | .add l, .add m => .add (l ++ m)
  | .add l, e => .add (l ++ [e])
  | e, .add m => .add (e :: m)
  | a, b => .add [a, b]

/-- `operator*(Expr, Expr)` (src/Expr.inlines.hh, GiNaC `mul`). -/
def mulE : Expr → Expr → Expr
  | .num p, .num q => .num (p * q)
  | .num p, e => if p = 0 then .num 0 else if p = 1 then e else
      match e with
      | .mul m => .mul (.num p :: m)
      | e => .mul [.num p, e]
  | .mul l, .num q => if q = 0 then .num 0 else if q = 1 then .mul l else .mul (l ++ [.num q])
  | e, .num q => if q = 0 then .num 0 else if q = 1 then e else .mul [e, .num q]
  | .mul l, .mul m => .mul (l ++ m)
  | .mul l, e => .mul (l ++ [e])
  | e, .mul m => .mul (e :: m)
  | a, b => .mul [a, b]

/-- Unary minus and subtraction (GiNaC: multiplication by `-1`). -/
def negE (e : Expr) : Expr := mulE (.num (-1)) e
/-- Binary minus (GiNaC: addition of the opposite). -/
def subE (a b : Expr) : Expr := addE a (negE b)

/-- `pwr(Expr, Expr)` (src/Expr.inlines.hh, GiNaC `pow`): `e^0 = 1`, `e^1 = e`,
`1^e = 1`, exact integer powers of rational numbers. -/
def powE : Expr → Expr → Expr
  | .num p, .num q =>
      if q.den = 1 then .num (p ^ q.num) else if p = 1 then .num 1 else .pow (.num p) (.num q)
  | e, .num q => if q = 0 then .num 1 else if q = 1 then e else .pow e (.num q)
  | .num p, e => if p = 1 then .num 1 else .pow (.num p) e
  | a, b => .pow a b

/-! ## Syntactic queries -/

/-- `e.is_a_number(num) && num.is_positive_integer()`. -/
def isPosInt : Expr → Bool
  | .num q => q.den = 1 && 0 < q.num
  | _ => false

/-- `Expr::has` (src/Expr.inlines.hh:427-430): GiNaC's subexpression test. -/
def has (y : Expr) (e : Expr) : Bool :=
  (e = y) ||
    match e with
    | .add l => (l.map fun a => has y a).any id
    | .mul l => (l.map fun a => has y a).any id
    | .pow b ex => has y b || has y ex
    | .fn _ l => (l.map fun a => has y a).any id
    | .binder _ i lo up body => has y i || has y lo || has y up || has y body
    | _ => false
termination_by e

/-- `Expr::is_scalar_representation(x)` (src/Expr.cc:842-868). -/
def isScalarRep (x : String) : Expr → Bool
  | .num _ => true
  | .const _ => true
  | .sym s => s ≠ x
  | .pow b e => isScalarRep x b && isScalarRep x e
  | .fn _ l => (l.map fun a => isScalarRep x a).all id
  | .binder _ i lo up body =>
      isScalarRep x i && isScalarRep x lo && isScalarRep x up && isScalarRep x body
  | .add l => (l.map fun a => isScalarRep x a).all id
  | .mul l => (l.map fun a => isScalarRep x a).all id

/-- `Expr::is_polynomial(x)` (src/Expr.cc:870-891). -/
def isPolynomial (x : String) (e : Expr) : Bool :=
  if isScalarRep x e then true
  else if e = .sym x then true
  else match e with
  | .pow b ex => isPolynomial x b && isPosInt ex
  | .add l => (l.map fun a => isPolynomial x a).all id
  | .mul l => (l.map fun a => isPolynomial x a).all id
  | _ => false
termination_by e

/-- `e.arg(i).is_a_symbol() && e != x` for a function `e` (src/Expr.cc:913 and 967): the
second conjunct compares the *function* `e`, not its argument, with the symbol `x`, so
it is always true. -/
def argIsSymbol : Expr → Bool
  | .sym _ => true
  | _ => false

/-- `Expr::is_integer_scalar_representation(x)` (src/Expr.cc:893-922).  In the power
case the alternative `(e.is_a_symbol() && e != x)` tests the power itself and is always
false. -/
def isIntScalarRep (x : String) : Expr → Bool
  | .num q => q.den = 1
  | .const _ => false
  | .sym s => s ≠ x
  | .pow b e => isIntScalarRep x b && isPosInt e
  | .fn _ l => l.all argIsSymbol
  | .binder _ i lo up body =>
      argIsSymbol i && argIsSymbol lo && argIsSymbol up && argIsSymbol body
  | .add l => (l.map fun a => isIntScalarRep x a).all id
  | .mul l => (l.map fun a => isIntScalarRep x a).all id

/-- `Expr::is_integer_polynomial(x)` (src/Expr.cc:924-945). -/
def isIntPolynomial (x : String) (e : Expr) : Bool :=
  if isIntScalarRep x e then true
  else if e = .sym x then true
  else match e with
  | .pow b ex => isIntPolynomial x b && isPosInt ex
  | .add l => (l.map fun a => isIntPolynomial x a).all id
  | .mul l => (l.map fun a => isIntPolynomial x a).all id
  | _ => false
termination_by e

/-- `e.is_a_number()`. -/
def isNum : Expr → Bool
  | .num _ => true
  | _ => false

/-- `Expr::is_rational_scalar_representation(x)` (src/Expr.cc:947-978).  The `else`
branches for functions, sums and products (src/Expr.cc:964-976) are attached by the
C++ grammar to the inner `if` of the power case, so for those shapes the answer is
`false`. -/
def isRatScalarRep (x : String) : Expr → Bool
  | .num _ => true
  | .sym s => s ≠ x
  | .pow b e =>
      if isRatScalarRep x b then
        (if isNum e then isPosInt e || !isNum b else true)
      else false
  | _ => false

/-- `Expr::is_rational_polynomial(x)` (src/Expr.cc:980-1001). -/
def isRatPolynomial (x : String) (e : Expr) : Bool :=
  if isRatScalarRep x e then true
  else if e = .sym x then true
  else match e with
  | .pow b ex => isRatPolynomial x b && isPosInt ex
  | .add l => (l.map fun a => isRatPolynomial x a).all id
  | .mul l => (l.map fun a => isRatPolynomial x a).all id
  | _ => false
termination_by e

/-- `Expr::is_scalar_representation()` without argument (src/Expr.cc:1003-1026). -/
def isClosedScalar : Expr → Bool
  | .num _ => true
  | .const _ => true
  | .sym _ => false
  | .pow b e => isClosedScalar b && isClosedScalar e
  | .fn _ l => (l.map fun a => isClosedScalar a).all id
  | .binder _ i lo up body =>
      isClosedScalar i && isClosedScalar lo && isClosedScalar up && isClosedScalar body
  | .add l => (l.map fun a => isClosedScalar a).all id
  | .mul l => (l.map fun a => isClosedScalar a).all id

/-- `Expr::is_multivariate_polynomial()` (src/Expr.cc:1028-1049). -/
def isMvPolynomial (e : Expr) : Bool :=
  if isClosedScalar e then true
  else match e with
  | .sym _ => true
  | .pow b ex => isMvPolynomial b && isPosInt ex
  | .add l => (l.map fun a => isMvPolynomial a).all id
  | .mul l => (l.map fun a => isMvPolynomial a).all id
  | _ => false
termination_by e

/-- `Expr::has_x_function()` (src/Expr.cc:1088-1109). -/
def hasX : Expr → Bool
  | .add l => (l.map fun a => hasX a).any id
  | .mul l => (l.map fun a => hasX a).any id
  | .pow b e => hasX b || hasX e
  | .fn f l => if f = .x then true else (l.map fun a => hasX a).any id
  | .binder _ i lo up body => hasX i || hasX lo || hasX up || hasX body
  | _ => false

/-- `Expr::has_x_function(y)` (src/Expr.cc:1111-1134): some `x(a)` with `y` in `a`.
Below an `x` the search does not continue.  `e.arg(0)` of an argument-less `x` does not
occur (the unknown is unary). -/
def hasXOf (y : Expr) : Expr → Bool
  | .add l => (l.map fun a => hasXOf y a).any id
  | .mul l => (l.map fun a => hasXOf y a).any id
  | .pow b e => hasXOf y b || hasXOf y e
  | .fn f l =>
      if f = .x then (match l with | a :: _ => has y a | [] => false)
      else (l.map fun a => hasXOf y a).any id
  | .binder _ i lo up body => hasXOf y i || hasXOf y lo || hasXOf y up || hasXOf y body
  | _ => false

/-- `Expr::has_sum_or_prod_function()` (src/Expr.cc:1136-1157). -/
def hasSumOrProd : Expr → Bool
  | .add l => (l.map fun a => hasSumOrProd a).any id
  | .mul l => (l.map fun a => hasSumOrProd a).any id
  | .pow b e => hasSumOrProd b || hasSumOrProd e
  | .fn _ l => (l.map fun a => hasSumOrProd a).any id
  | .binder .. => true
  | _ => false

/-- `Expr::preserves_nonnegativity()` (src/Expr.cc:1159-1181). -/
def preservesNonneg : Expr → Bool
  | .sym _ => true
  | .num q => 0 < q
  | .add l => (l.map fun a => preservesNonneg a).all id
  | .mul l => (l.map fun a => preservesNonneg a).all id
  | .pow b _ => preservesNonneg b
  | _ => false

/-- `PURRS::has_parameters(e)` (src/util.cc:583-607); `Recurrence::n` is `n`. -/
def hasParameters (n : String) : Expr → Bool
  | .add l => (l.map fun a => hasParameters n a).any id
  | .mul l => (l.map fun a => hasParameters n a).any id
  | .pow b e => hasParameters n b || hasParameters n e
  | .fn f l => if f = .x then true else (l.map fun a => hasParameters n a).any id
  | .binder _ i lo up body =>
      hasParameters n i || hasParameters n lo || hasParameters n up || hasParameters n body
  | .sym s => s ≠ n
  | _ => false

/-! ## Transformations -/

/-- `Expr::substitute(s, r)` (src/Expr.cc:756-795).  The loops run from the last operand
to the first, accumulating with `+=`, `*=`.  The auto-evaluation of the applied
functions is not modelled here. -/
def substitute (s r : Expr) (e : Expr) : Expr :=
  if e = s then r
  else match e with
  | .add l => l.foldr (fun a acc => addE acc (substitute s r a)) (.num 0)
  | .mul l => l.foldr (fun a acc => mulE acc (substitute s r a)) (.num 1)
  | .pow b ex => powE (substitute s r b) (substitute s r ex)
  | .fn f l => .fn f (l.map fun a => substitute s r a)
  | .binder k i lo up body =>
      .binder k (substitute s r i) (substitute s r lo) (substitute s r up) (substitute s r body)
  | .num q => .num q
  | .const c => .const c
  | .sym t => .sym t
termination_by e

/-- The operands of a sum, or the expression itself: the pattern
`if (e.is_a_add()) for ... e.op(i) ... else ... e ...`. -/
def addends : Expr → List Expr
  | .add l => l
  | e => [e]

/-- The operands of a product, or the expression itself. -/
def factors : Expr → List Expr
  | .mul l => l
  | e => [e]

/-- One iteration of the loop of `distribute_mul_over_add_factor`
(src/Expr.cc:803-819): the new `distributed_e` from the factor and the old one.  The
four cases of the C++ code are the pairs of "is a sum"/"is not". -/
def distStep (factor distributed : Expr) : Expr :=
  (addends factor).foldr (fun fj tmp =>
    (addends distributed).foldr (fun dh tmp => addE tmp (mulE fj dh)) tmp) (.num 0)

/-- `distribute_mul_over_add_factor` (src/Expr.cc:799-822) on the list of factors: it
starts from `e.op(0)` and runs from the last operand down to operand 1. -/
def distFactor : List Expr → Expr
  | [] => .num 1
  | a :: l => l.foldr (fun f d => distStep f d) a

/-- `Expr::distribute_mul_over_add` (src/Expr.cc:826-840). -/
def distribute : Expr → Expr
  | .add l => l.foldr (fun a acc => addE acc (distribute a)) (.num 0)
  | .mul l => distFactor l
  | e => e

/-- `PURRS::isolate_polynomial_part` (src/util.cc:248-270): the pair
`(polynomial, rest)`. -/
def isolatePolynomialPart (x : String) (e : Expr) : Expr × Expr :=
  match e with
  | .add l => l.foldr (fun a acc =>
      if isPolynomial x a then (addE acc.1 a, acc.2) else (acc.1, addE acc.2 a))
      (.num 0, .num 0)
  | e => if isPolynomial x e then (e, .num 0) else (.num 0, e)

/-- State of the inner loop of `collect_term` over the factors of one addend
(src/Expr.cc:1196-1208): `(found_x, mul_for_x)`. -/
def collectFactor (x : Expr) (factor : Expr) (st : Bool × Expr) : Bool × Expr :=
  if factor = x then (true, st.2)
  else match factor with
    | .pow b ex => if b = x then (true, mulE st.2 (powE x (subE ex (.num 1))))
        else (st.1, mulE st.2 factor)
    | _ => (st.1, mulE st.2 factor)

/-- One iteration of the outer loop of `collect_term` (src/Expr.cc:1191-1224):
`st = (coeffs_of_x, e_rewritten)`. -/
def collectAddend (x : Expr) (addend : Expr) (st : Expr × Expr) : Expr × Expr :=
  match addend with
  | .mul l =>
      let r := l.foldr (collectFactor x) (false, .num 1)
      if r.1 then (addE st.1 r.2, st.2) else (st.1, addE st.2 addend)
  | _ =>
    if addend = x then (addE st.1 (.num 1), st.2)
    else match addend with
      | .pow b ex =>
          if b = x then (addE st.1 (powE x (subE ex (.num 1))), st.2)
          else (st.1, addE st.2 addend)
      | _ => (st.1, addE st.2 addend)

/-- `Expr::collect_term(x, coeff_x)` (src/Expr.cc:1183-1233) applied to an already
simplified expression: `(result, coeff_x)`. -/
def collectTerm (x : Expr) (e : Expr) : Expr × Expr :=
  match e with
  | .add l =>
      let r := l.foldr (collectAddend x) (.num 0, .num 0)
      (addE r.2 (mulE x r.1), r.1)
  | e => (e, .num 1)

/-- `generic_size_norm` (src/size_norm_impl.hh:32-47), with the symbol handler as a
parameter (`unsigned int` counters are modelled without overflow). -/
def sizeNorm (sh : String → Nat) : Expr → Nat
  | .add l => 1 + (l.map fun a => sizeNorm sh a).sum
  | .mul l => 1 + (l.map fun a => sizeNorm sh a).sum
  | .pow b e => 1 + (sizeNorm sh b + sizeNorm sh e)
  | .fn _ l => 1 + (l.map fun a => sizeNorm sh a).sum
  | .binder _ i lo up body =>
      1 + (sizeNorm sh body + sizeNorm sh up + sizeNorm sh lo + sizeNorm sh i)
  | .sym s => sh s
  | _ => 1

end Purrs
