import Verif.Model.ExprLemmas
import Verif.Model.IntUtil

/-!
# Model of `src/Blackboard.{cc,inlines.hh,defs.hh}`

`Definition`s live in a deque in insertion order; `index` maps symbol names to
positions.  The caches of `Definition` (time-stamped expansion and size) are part of the
state and `rewrite`, `size_norm` update them, as the `mutable` members do.
Simplification: `unsigned long` time stamps and `unsigned int` positions do not overflow.
-/

namespace Purrs

/-- `Blackboard::Definition` with its two `Cached<T>` members
(src/Blackboard.defs.hh, src/Blackboard.inlines.hh:36-49). -/
structure Definition where
  rhs : Expr
  sizeStamp : Nat
  sizeVal : Nat
  expStamp : Nat
  expVal : Expr

/-- `Definition(e)`: both caches out of date (time stamp 0, src/Blackboard.inlines.hh:38-49). -/
def Definition.new (e : Expr) : Definition := ⟨e, 0, 0, 0, .num 0⟩

/-- `Blackboard` (src/Blackboard.defs.hh).  `index` is the `std::map` from names to
positions, kept in order of insertion here (`find_symbol`, which iterates over the map in
the order of the names, sorts it). -/
structure Blackboard where
  index : List (String × Nat)
  defs : List Definition
  stamp : Nat

namespace Blackboard

/-- Default constructor (src/Blackboard.inlines.hh:51-55). -/
def empty : Blackboard := ⟨[], [], 1⟩

/-- `index.find(z)`. -/
def find (B : Blackboard) (z : String) : Option Nat :=
  (B.index.find? fun p => p.1 = z).map Prod.snd

/-- `index.insert(value_type(z, k))`: `std::map::insert` keeps an existing entry. -/
def indexInsert (ix : List (String × Nat)) (z : String) (k : Nat) : List (String × Nat) :=
  if (ix.find? fun p => p.1 = z).isSome then ix else ix ++ [(z, k)]

/-- `insert_definition(e)` (src/Blackboard.inlines.hh:74-82) where `z` is the name of the
fresh symbol made by the default constructor of `Symbol`. -/
def insertDef (B : Blackboard) (z : String) (e : Expr) : Blackboard :=
  ⟨indexInsert B.index z B.defs.length, B.defs ++ [Definition.new e], B.stamp + 1⟩

/-- `get_definition(z)` (src/Blackboard.inlines.hh:84-91). -/
def getDef (B : Blackboard) (z : String) : Expr :=
  match B.find z with
  | some i => (match B.defs[i]? with | some d => d.rhs | none => .sym z)
  | none => .sym z

/-- `substitute(old, new)` (src/Blackboard.inlines.hh:104-121). -/
def substitute (B : Blackboard) (old new : String) : Blackboard :=
  match B.find old with
  | some i =>
      let rhs := match B.defs[i]? with | some d => d.rhs | none => .num 0
      ⟨(indexInsert B.index new B.defs.length).filter (fun p => p.1 ≠ old),
        B.defs ++ [Definition.new rhs], B.stamp + 1⟩
  | none => B

/-- The names of the index in the order of the `std::map` iteration
(`Symbol::NameCompare`: lexicographic, src/Symbol.inlines.hh:66-69). -/
def sortedNames (B : Blackboard) : List String :=
  (B.index.map Prod.fst).mergeSort (fun a b => decide (a ≤ b))

/-- The loop of `find_symbol` (src/Blackboard.inlines.hh:94-100): the deque in insertion
order and the map in name order are scanned in lockstep.  Dereferencing or advancing the
map iterator at the end is undefined behaviour. -/
def findLoop (e : Expr) : List Definition → List String → Outcome (Option String)
  | [], _ => .ok none
  | d :: ds, n :: ns => if d.rhs = e then .ok (some n) else findLoop e ds ns
  | _ :: _, [] => .ub

/-- `find_symbol(e)` (src/Blackboard.inlines.hh:93-102) with `z` the name of the symbol
that would be created; returns the symbol and the new state. -/
def findSymbol (B : Blackboard) (z : String) (e : Expr) : Outcome (String × Blackboard) :=
  match findLoop e B.defs B.sortedNames with
  | .ok (some s) => .ok (s, B)
  | .ok none => .ok (z, B.insertDef z e)
  | .ub => .ub
  | .throws => .throws

/-- Store an expansion in the cache of definition `i` (src/Blackboard.cc:40-42). -/
def setExp (B : Blackboard) (i : Nat) (v : Expr) : Blackboard :=
  { B with defs := B.defs.modify i fun d => { d with expVal := v, expStamp := B.stamp } }

/-- Store a size in the cache of definition `i` (src/Blackboard.cc:88-89). -/
def setSize (B : Blackboard) (i : Nat) (v : Nat) : Blackboard :=
  { B with defs := B.defs.modify i fun d => { d with sizeVal := v, sizeStamp := B.stamp } }

/-- `rewrite(e)` and `rewrite(Definition&)` (src/Blackboard.cc:37-83), state-passing.
`fuel` bounds the nesting of definitions; `none` means that the recursion does not end
(the C++ stack overflows).  Sums and products are processed from the last operand to the
first; function arguments from the first to the last. -/
def rewriteM (fuel : Nat) (B : Blackboard) (e : Expr) : Option (Expr × Blackboard) :=
  match e with
  | .add l => l.foldr (fun a acc => acc.bind fun st =>
      (rewriteM fuel st.2 a).map fun r => (addE st.1 r.1, r.2)) (some (.num 0, B))
  | .mul l => l.foldr (fun a acc => acc.bind fun st =>
      (rewriteM fuel st.2 a).map fun r => (mulE st.1 r.1, r.2)) (some (.num 1, B))
  | .pow b ex => (rewriteM fuel B b).bind fun r =>
      (rewriteM fuel r.2 ex).map fun r' => (powE r.1 r'.1, r'.2)
  | .fn f l => (l.foldl (fun acc a => acc.bind fun st =>
      (rewriteM fuel st.2 a).map fun r => (st.1 ++ [r.1], r.2)) (some ([], B))).map
      fun st => (.fn f st.1, st.2)
  | .binder k i lo up body => (rewriteM fuel B i).bind fun ri =>
      (rewriteM fuel ri.2 lo).bind fun rlo =>
      (rewriteM fuel rlo.2 up).bind fun rup =>
      (rewriteM fuel rup.2 body).map fun rb => (.binder k ri.1 rlo.1 rup.1 rb.1, rb.2)
  | .sym z =>
      match B.find z with
      | none => some (.sym z, B)
      | some i =>
        match B.defs[i]? with
        | none => none
        | some d =>
          if B.stamp > d.expStamp then
            match fuel with
            | 0 => none
            | fuel + 1 => (rewriteM fuel B d.rhs).map fun r => (r.1, r.2.setExp i r.1)
          else some (d.expVal, B)
  | .num q => some (.num q, B)
  | .const c => some (.const c, B)
termination_by (fuel, e)

/-- `size_norm(e)`, `size_norm(Symbol)`, `size_norm(Definition&)` with
`generic_size_norm` (src/Blackboard.cc:85-107, src/size_norm_impl.hh:32-47). -/
def sizeM (fuel : Nat) (B : Blackboard) (e : Expr) : Option (Nat × Blackboard) :=
  match e with
  | .add l => l.foldr (fun a acc => acc.bind fun st =>
      (sizeM fuel st.2 a).map fun r => (st.1 + r.1, r.2)) (some (1, B))
  | .mul l => l.foldr (fun a acc => acc.bind fun st =>
      (sizeM fuel st.2 a).map fun r => (st.1 + r.1, r.2)) (some (1, B))
  | .pow b ex => (sizeM fuel B b).bind fun r =>
      (sizeM fuel r.2 ex).map fun r' => (1 + (r.1 + r'.1), r'.2)
  | .fn _ l => l.foldr (fun a acc => acc.bind fun st =>
      (sizeM fuel st.2 a).map fun r => (st.1 + r.1, r.2)) (some (1, B))
  | .binder _ i lo up body => (sizeM fuel B body).bind fun rb =>
      (sizeM fuel rb.2 up).bind fun ru =>
      (sizeM fuel ru.2 lo).bind fun rl =>
      (sizeM fuel rl.2 i).map fun ri => (1 + rb.1 + ru.1 + rl.1 + ri.1, ri.2)
  | .sym z =>
      match B.find z with
      | none => some (1, B)
      | some i =>
        match B.defs[i]? with
        | none => none
        | some d =>
          if B.stamp > d.sizeStamp then
            match fuel with
            | 0 => none
            | fuel + 1 => (sizeM fuel B d.rhs).map fun r => (r.1, r.2.setSize i r.1)
          else some (d.sizeVal, B)
  | .num _ => some (1, B)
  | .const _ => some (1, B)
termination_by (fuel, e)

end Blackboard
end Purrs
