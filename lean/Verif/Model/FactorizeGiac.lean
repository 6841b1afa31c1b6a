import Verif.Model.Blackboard
import Verif.Props.BlackboardHist

/-!
# Model of `src/factorize_giac.cc`

The expression is translated into a tree of the library giac, factorized there, split in
numeric and non-numeric factors and translated back.  giac's own operations are parameters
(`Lib`).  Simplifications: numbers are rational (a complex number would become a symbol like
a constant); the heads of giac's trees other than the ones below are not modelled; a
recursion that does not return, an integer that does not fit in an `int` and a symbolic sum
or product give `none`.
-/

namespace Purrs

/-- giac's `gen`, as far as `translate` distinguishes its forms
(src/factorize_giac.cc:283-326): integers, fractions, identifiers, `at_plus`, `at_prod`,
`at_inv`, `at_pow` and functions of one argument. -/
inductive Gen where
  | int (z : ℤ)
  | frac (p q : ℤ)
  | idnt (s : String)
  | plus (l : List Gen)
  | prod (l : List Gen)
  | inv (g : Gen)
  | pow (a b : Gen)
  | call (f : Fn) (g : Gen)

namespace Giac

/-- The operations of the library giac that are called: `+`, `*`, `pow`, `factor`
(src/factorize_giac.cc:104-120, 337). -/
structure Lib where
  add : Gen → Gen → Gen
  mul : Gen → Gen → Gen
  pow : Gen → Gen → Gen
  factor : Gen → Gen

/-- The value fits in a C++ `int` (`to_int()`, `.val`). -/
def small (z : ℤ) : Bool := decide (-(2:ℤ) ^ 31 ≤ z ∧ z < (2:ℤ) ^ 31)

/-- The identifiers in a tree, one for each occurrence. -/
def idents : Gen → List String
  | .int _ => []
  | .frac _ _ => []
  | .idnt s => [s]
  | .plus l => l.flatMap fun a => idents a
  | .prod l => l.flatMap fun a => idents a
  | .inv g => idents g
  | .pow a b => idents a ++ idents b
  | .call _ g => idents g

/-- `translate(e_giac)` (src/factorize_giac.cc:279-326). -/
def back : Gen → Option Expr
  | .int z => if small z then some (.num z) else none
  | .frac p q => if small p && small q && decide (q ≠ 0) then some (.num ((p : ℚ) / (q : ℚ))) else none
  | .idnt s => some (.sym s)
  | .plus l => l.foldr (fun a acc => acc.bind fun e => (back a).map fun r => addE e r) (some (.num 0))
  | .prod l => l.foldr (fun a acc => acc.bind fun e => (back a).map fun r => mulE e r) (some (.num 1))
  | .inv g => (back g).map fun r => powE r (.num (-1))
  | .pow a b => (back a).bind fun r => (back b).map fun r' => powE r r'
  | .call f g => (back g).map fun r => .fn f [r]

/-- The test of the loop that sets the numeric factors apart
(src/factorize_giac.cc:349-350, 357-358): integers, fractions and *inverses*. -/
def isNumFactor : Gen → Bool
  | .int _ => true
  | .frac _ _ => true
  | .inv _ => true
  | _ => false

/-- The split of the factorized tree (src/factorize_giac.cc:338-362). -/
def split (L : Lib) : Gen → Gen × Gen
  | .prod v => v.foldr (fun a st =>
      if isNumFactor a then (L.mul st.1 a, st.2) else (st.1, L.mul st.2 a)) (.int 1, .int 1)
  | g => if isNumFactor g then (L.mul (.int 1) g, .int 1) else (.int 1, L.mul (.int 1) g)

/-- `blackboard.find_symbol(e)` used for an identifier (src/factorize_giac.cc:178, 182, 192,
196).  Simplification: the serial number of GiNaC's symbols also advances when the symbol is
found. -/
def lookup (w : World) (e : Expr) : Option (Gen × World) :=
  match w.bb.findSymbol (autoName w.serial) e with
  | .ok r => some (.idnt r.1, ⟨r.2, w.serial + 1⟩)
  | _ => none

/-- `factorize_giac_recursive(e, num_factors, not_num_factors)`
(src/factorize_giac.cc:328-367) where `tr` is `translate(e, …, blackboard)` and `n` the
serial number of the next symbol; the blackboard is local.  The symbols made by the
translation back are counted. -/
def factWith (L : Lib) (tr : World → Expr → Option (Gen × World)) (n : ℕ) (e : Expr) :
    Option (Expr × Expr × ℕ) :=
  (tr ⟨Blackboard.empty, n⟩ e).bind fun r =>
    let s := split L (L.factor r.1)
    (back s.1).bind fun a => (back s.2).bind fun b =>
      (Blackboard.rewriteM r.2.bb.defs.length r.2.bb a).bind fun ra =>
        (Blackboard.rewriteM r.2.bb.defs.length ra.2 b).map fun rb =>
          (ra.1, rb.1, r.2.serial + (idents s.1).length + (idents s.2).length)

/-- `translate(e, num_factors, not_num_factors, blackboard)` (src/factorize_giac.cc:98-200).
`fuel` bounds the depth of the recursion.  The two arguments of `pow` are translated from the
first to the second (C++ leaves the order open). -/
def fwd (L : Lib) : ℕ → World → Expr → Option (Gen × World)
  | 0, _, _ => none
  | fuel + 1, w, e =>
    match e with
    | .add l => l.foldr (fun a acc => acc.bind fun st =>
        (fwd L fuel st.2 a).map fun r => (L.add st.1 r.1, r.2)) (some (.int 0, w))
    | .mul l => l.foldr (fun a acc => acc.bind fun st =>
        (fwd L fuel st.2 a).map fun r => (L.mul st.1 r.1, r.2)) (some (.int 1, w))
    | .pow b x => (fwd L fuel w b).bind fun r =>
        (fwd L fuel r.2 x).map fun r' => (L.pow r.1 r'.1, r'.2)
    | .fn f [a] => (factWith L (fwd L fuel) w.serial a).bind fun r =>
        (fwd L fuel ⟨w.bb, r.2.2⟩ (mulE r.1 r.2.1)).map fun r' => (.call f r'.1, r'.2)
    | .fn f l => (l.foldl (fun acc a => acc.bind fun st =>
        (factWith L (fwd L fuel) st.2 a).map fun r => (st.1 ++ [mulE r.1 r.2.1], r.2.2))
        (some ([], w.serial))).bind fun st => lookup ⟨w.bb, st.2⟩ (.fn f st.1)
    | .binder _ _ _ _ _ => none
    | .sym s => lookup w (.sym s)
    | .const c => lookup w (.const c)
    | .num q => if q.den = 1 then (if small q.num then some (.int q.num, w) else none)
        else if small q.num && small q.den then some (.frac q.num q.den, w) else none

/-- `factorize_giac(e, num_factors, not_num_factors)` (src/factorize_giac.cc:382-396): the
two results and the serial number of the next symbol. -/
def factorizeGiac (L : Lib) (fuel n : ℕ) (e : Expr) : Option (Expr × Expr × ℕ) :=
  factWith L (fwd L fuel) n e

end Giac
end Purrs
