import Verif.Model.Blackboard

/-!
# `Cached_Expr::replace_system_generated_symbols` (src/Cached_Expr.cc) and
`Symbol::is_system_generated` (src/Symbol.cc)
-/

namespace Purrs

/-- The 23 letters of src/Cached_Expr.cc:43 (no e, n, x). -/
def symbolLetters : List Char := "abcdfghijklmopqrstuvwyz".toList

/-- `new_symbol_name(i)` (src/Cached_Expr.cc:41-59).  Simplification: `i` is a natural number. -/
def newSymbolName (i : Nat) : String :=
  let letter := symbolLetters.getD (i % 23) 'a'
  let index := i / 23
  if index = 0 then String.ofList [letter] else String.ofList (letter :: (Nat.repr index).toList)

/-- `Symbol::is_system_generated()` (src/Symbol.cc:33-52). -/
def isSystemGenerated (s : String) : Bool :=
  if s.toList.length < 7 then false
  else if s.toList.take 6 ≠ "symbol".toList then false
  else (s.toList.drop 6).all fun c => c ∈ "0123456789".toList

/-- The names in an expression, in the order of the traversal of `Expr::collect_symbols`
(src/Expr.cc:1235-1255). -/
def symsOf : Expr → List String
  | .add l => (l.map fun a => symsOf a).flatten
  | .mul l => (l.map fun a => symsOf a).flatten
  | .pow b e => symsOf b ++ symsOf e
  | .fn _ l => (l.map fun a => symsOf a).flatten
  | .binder _ i lo up body => symsOf i ++ symsOf lo ++ symsOf up ++ symsOf body
  | .sym s => [s]
  | _ => []

/-- The `std::set` (ordered by name, no duplicates) of the system-generated symbols. -/
def sysSyms (e : Expr) : List String :=
  (((symsOf e).filter fun s => isSystemGenerated s).dedup).mergeSort fun a b => decide (a ≤ b)

/-- The set of the other symbols. -/
def goodSyms (e : Expr) : List String := (symsOf e).filter fun s => !isSystemGenerated s

/-- The `while` of src/Cached_Expr.cc:76-83: the first name not in use, from index `i` on.
The loop of the code is unbounded; `fuel` is the number of names in use, which is enough
(`pick_fresh`). -/
def pickName : Nat → List String → Nat → String
  | 0, _, i => newSymbolName i
  | fuel + 1, used, i =>
      if newSymbolName i ∈ used then pickName fuel used (i + 1) else newSymbolName i

/-- The `for` of src/Cached_Expr.cc:74-93; returns the new expression, the new blackboard and the
renamings made. -/
def replaceLoop : List String → Nat → List String → Expr → Blackboard →
    Expr × Blackboard × List (String × String)
  | [], _, _, e, B => (e, B, [])
  | b :: bs, i, used, e, B =>
      let name := pickName used.length used i
      let r := replaceLoop bs (i + 1) (name :: used) (substitute (.sym b) (.sym name) e)
        (B.substitute b name)
      (r.1, r.2.1, (b, name) :: r.2.2)

/-- `replace_system_generated_symbols(rec)` (src/Cached_Expr.cc:63-95). -/
def replaceSystemSymbols (e : Expr) (B : Blackboard) : Expr × Blackboard × List (String × String) :=
  replaceLoop (sysSyms e) 0 (goodSyms e) e B

end Purrs
