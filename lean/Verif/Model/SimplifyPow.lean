import Verif.Model.Expr

/-!
# Powers: `src/simplify.cc:72-503` and `931-967`

`erase_factor`, `return_power`, `find_real_base_and_build_exponent`,
`simplify_powers`, `collect_same_exponents`, `collect_same_base` and the driver
`simplify_expanded_ex_for_input`.

Simplifications:
* GiNaC's `expand` and the equality `a == -b` of canonical expressions are parameters
  (`Ops.expand`, `Ops.opposite`), as is `simplify_numer_denom` (`Ops.nd`, modelled in
  `Model/NumDen.lean`) and the test `perfect_root` (`Ops.perfect`), which only decides
  between two forms of the same power;
* `PURRS::apply` builds the application without evaluating it.
-/

namespace Purrs.SimplifyPow

open Purrs

/-- The operations that are not modelled. -/
structure Ops where
  /-- `Expr::expand` (GiNaC). -/
  expand : Expr → Expr
  /-- `simplify_numer_denom` (src/simplify.cc:1976-1986). -/
  nd : Expr → Expr
  /-- `perfect_root(base, exponent)` (src/simplify.cc:105-113). -/
  perfect : ℚ → ℚ → Bool
  /-- `exponents[j] == -exponents[i]` (src/simplify.cc:355) on canonical expressions. -/
  opposite : Expr → Expr → Bool

/-- The operands of a product without the first occurrence of `n`; `none` if there is
none (src/simplify.cc:75-87). -/
def eraseFirst (n : String) : List Expr → Option (List Expr)
  | [] => none
  | a :: l => if a = .sym n then some l else (eraseFirst n l).map fun m => a :: m

/-- `erase_factor` (src/simplify.cc:72-95): the new exponent, or `none` if it returns
`false`. -/
def eraseFactor (n : String) : Expr → Option Expr
  | .mul l => (eraseFirst n l).map fun m => m.foldl mulE (.num 1)
  | e => if e = .sym n then some (.num 1) else none

/-- `return_power` (src/simplify.cc:127-147). -/
def returnPower (n : String) (isNumeric : Bool) (base numExp notNumExp : Expr) (input : Bool) : Expr :=
  match (if input then eraseFactor n notNumExp else none) with
  | none =>
      if isNumeric then powE (powE base numExp) notNumExp else powE base (mulE numExp notNumExp)
  | some e =>
      if isNumeric then powE (powE (powE base numExp) e) (.sym n)
      else powE (powE base (mulE numExp e)) (.sym n)

/-- `split_exponent` (src/simplify.cc:153-159) on the pair `(num, not_num)`. -/
def splitExp (e : Expr) (p : Expr × Expr) : Expr × Expr :=
  if isNum e then (mulE p.1 e, p.2) else (p.1, mulE p.2 e)

/-- `find_real_base_and_build_exponent` (src/simplify.cc:167-187): the base and the two
parts of the exponent. -/
def realBase : Expr → Expr × Expr → Expr × (Expr × Expr)
  | .pow b ex, p => realBase b ((factors ex).foldr splitExp p)
  | e, p => (e, p)

/-- One factor in `simplify_powers_with_bases_mul` (src/simplify.cc:215-235). -/
def powFactor (n : String) (p : Expr × Expr) (input : Bool) (a : Expr) : Expr :=
  let r := realBase a p
  returnPower n (isNum r.1) r.1 r.2.1 r.2.2 input

/-- `simplify_powers_with_bases_mul` (src/simplify.cc:204-236). -/
def powMul (n : String) (l : List Expr) (p : Expr × Expr) (input : Bool) : Expr :=
  l.foldr (fun a acc => mulE acc (powFactor n p input a)) (.num 1)

/-- `base.nops() == 2 && (base.op(0) == -1 || base.op(1) == -1)`
(src/simplify.cc:274). -/
def isOpposite (l : List Expr) : Bool := l.length = 2 && l.any (· = .num (-1))

/-- The choice of `is_numeric_base` for a numeric base (src/simplify.cc:281-287). -/
def numericRoot (O : Ops) (q : ℚ) : Expr → Bool
  | .num c => c.den = 1 || O.perfect q c
  | _ => false

/-- `simplify_powers` (src/simplify.cc:255-292). -/
def simplifyPowers (O : Ops) (n : String) (e : Expr) (input : Bool) : Expr :=
  let r := realBase e (.num 1, .num 1)
  match r.1 with
  | .mul l =>
      if isOpposite l then returnPower n false (.mul l) r.2.1 r.2.2 input
      else powMul n l r.2 input
  | .num q => returnPower n (numericRoot O q r.2.1) (.num q) r.2.1 r.2.2 input
  | b => returnPower n false b r.2.1 r.2.2 input

/-! ## Collecting powers -/

/-- The factor `-1` or a power as a pair of base and exponent
(src/simplify.cc:302-312). -/
def asPair (f : Expr) : Option (Expr × Expr) :=
  if f = .num (-1) then some (f, .num 1)
  else match f with
  | .pow b e => some (b, e)
  | _ => none

/-- `find_bases_and_exponents` (src/simplify.cc:299-314): the operands are visited from
the last to the first. -/
def basesExps (l : List Expr) : List (Expr × Expr) := l.reverse.filterMap asPair

/-- `nops()`. -/
def nops : Expr → ℕ
  | .add l => l.length
  | .mul l => l.length
  | .pow _ _ => 2
  | .fn _ l => l.length
  | .binder .. => 4
  | _ => 0

/-- `operator/`. -/
def quo (a b : Expr) : Expr := mulE a (powE b (.num (-1)))

/-- The inner loop of `collect_same_exponents` (src/simplify.cc:346-377): the pair `i`
against the pairs `j < i` (from `i - 1` down to `0`). -/
def absorbExp (O : Ops) (n : String) (onlyN : Bool) : Expr × Expr → List (Expr × Expr) → (Expr × Expr) × List (Expr × Expr)
  | p, [] => (p, [])
  | p, q :: l =>
      if q.2 = p.2 then
        if !onlyN || q.2 = .sym n then
          let r := absorbExp O n onlyN (mulE p.1 q.1, p.2) l
          (r.1, (q.1, .num 0) :: r.2)
        else
          let r := absorbExp O n onlyN p l
          (r.1, q :: r.2)
      else if O.opposite q.2 p.2 then
        let p' := if nops q.2 > nops p.2 then (quo p.1 q.1, p.2) else (quo q.1 p.1, q.2)
        let r := absorbExp O n onlyN p' l
        (r.1, (q.1, .num 0) :: r.2)
      else
        let r := absorbExp O n onlyN p l
        (r.1, q :: r.2)

/-- The outer loop of `collect_same_exponents` (src/simplify.cc:345-380); the list
starts with the current pair `i`, the number bounds its length. -/
def collectExp (O : Ops) (n : String) (onlyN : Bool) : ℕ → List (Expr × Expr) → Expr → Expr
  | _, [], acc => acc
  | 0, _, acc => acc
  | k + 1, p :: l, acc =>
      let r := absorbExp O n onlyN p l
      collectExp O n onlyN k r.2 (mulE acc (powE (O.nd r.1.1) r.1.2))

/-- `!factor.is_a_power() && factor != -1` (src/simplify.cc:388). -/
def isRest (f : Expr) : Bool := (asPair f).isNone

/-- `collect_same_exponents` (src/simplify.cc:329-392) on the operands of a product. -/
def collectSameExponents (O : Ops) (n : String) (onlyN : Bool) (l : List Expr) : Expr :=
  let ps := (basesExps l).reverse
  l.foldr (fun f acc => if isRest f then mulE acc f else acc) (collectExp O n onlyN ps.length ps (.num 1))

/-- The inner loop of `collect_same_base` (src/simplify.cc:419-429). -/
def absorbBase : Expr × Expr → List (Expr × Expr) → (Expr × Expr) × List (Expr × Expr)
  | p, [] => (p, [])
  | p, q :: l =>
      if q.1 = p.1 then
        let r := absorbBase (p.1, addE p.2 q.2) l
        (r.1, (q.1, .num 0) :: r.2)
      else
        let r := absorbBase p l
        (r.1, q :: r.2)

/-- The outer loop of `collect_same_base` (src/simplify.cc:418-431): `e_rewritten` and
the final vectors (from the last index to the first). -/
def collectBase : ℕ → List (Expr × Expr) → Expr → Expr × List (Expr × Expr)
  | _, [], acc => (acc, [])
  | 0, l, acc => (acc, l)
  | k + 1, p :: l, acc =>
      let r := absorbBase p l
      let s := collectBase k r.2 (mulE acc (powE r.1.1 r.1.2))
      (s.1, r.1 :: s.2)

/-- The new power of rule `C1` (src/simplify.cc:454-466). -/
def plusOne (b e : Expr) : Expr :=
  match b, e with
  | .num q, .num c =>
      if q.den ≠ 1 ∨ q = -1 then powE (.num q) (addE (.num c) (.num 1))
      else mulE (powE (.num q) (.num c)) (.num q)
  | b, e => powE b (addE e (.num 1))

/-- The loop over the bases in the second part of `collect_same_base`
(src/simplify.cc:447-468): `(old_factor, new_factor)`; the list is in the order of the
loop and the last match wins. -/
def matchBase (f : Expr) : List (Expr × Expr) → Option (Expr × Expr)
  | [] => none
  | q :: l =>
      match matchBase f l with
      | some r => some r
      | none => if q.1 = f ∧ q.2 ≠ .num 0 then some (powE q.1 q.2, plusOne q.1 q.2) else none

/-- One factor in the second loop of `collect_same_base` (src/simplify.cc:437-474). -/
def baseStep (ps : List (Expr × Expr)) (f acc : Expr) : Expr :=
  if isRest f then
    match matchBase f ps with
    | some r => substitute r.1 r.2 acc
    | none => mulE acc f
  else acc

/-- `collect_same_base` (src/simplify.cc:404-477). -/
def collectSameBase (l : List Expr) : Expr :=
  let ps := (basesExps l).reverse
  let r := collectBase ps.length ps (.num 1)
  l.foldr (baseStep r.2) r.1

/-- `collect_base_exponent` (src/simplify.cc:485-504). -/
def collectBaseExponent (O : Ops) (n : String) (l : List Expr) : Expr :=
  match collectSameExponents O n false l with
  | .mul m => collectSameBase m
  | e => e

/-! ## The driver for input -/

/-- `if (e_rewritten.is_a_mul()) e_rewritten = collect_same_exponents(e_rewritten, true)`
(src/simplify.cc:944-945). -/
def collectIfMul (O : Ops) (n : String) : Expr → Expr
  | .mul m => collectSameExponents O n true m
  | e => e

/-- The body of `simplify_expanded_ex_for_input` (src/simplify.cc:931-967) with the
recursive calls `rec` (the calls are made on `op(i).expand()`). -/
def inputStep (O : Ops) (n : String) (rec : Expr → Option Expr) : Expr → Option Expr
  | .add l => (l.mapM fun a => rec (O.expand a)).map fun m => m.foldr (fun a acc => addE acc a) (.num 0)
  | .mul l => (l.mapM fun a => rec (O.expand a)).map fun m =>
      collectIfMul O n (m.foldr (fun a acc => mulE acc a) (.num 1))
  | .pow b e => some (simplifyPowers O n (.pow b e) true)
  | .fn f l => (l.mapM fun a => rec (O.expand a)).map fun m => .fn f m
  | .binder k i lo up body =>
      (rec (O.expand i)).bind fun i' => (rec (O.expand lo)).bind fun lo' => (rec (O.expand up)).bind fun up' =>
        (rec (O.expand body)).map fun body' => .binder k i' lo' up' body'
  | e => some e

/-- `simplify_expanded_ex_for_input`; the first argument bounds the depth of the
recursion. -/
def simplifyIn (O : Ops) (n : String) : ℕ → Expr → Option Expr
  | 0, _ => none
  | k + 1, e => inputStep O n (simplifyIn O n k) e

/-- `simplify_ex_for_input` (src/simplify.cc:1962-1965). -/
def simplifyForInput (O : Ops) (n : String) (k : ℕ) (e : Expr) : Option Expr := simplifyIn O n k (O.expand e)

end Purrs.SimplifyPow
