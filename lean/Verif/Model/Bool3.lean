/-!
# Model of `src/Bool3.types.hh` and `src/Bool3.inlines.hh`
-/

namespace Purrs

/-- `enum Bool3 { ALWAYS, NEVER, MAYBE };`  (src/Bool3.types.hh:16). -/
inductive Bool3 where
  | always
  | never
  | maybe
  deriving DecidableEq, Repr

namespace Bool3

/-- `lor`, also `operator||` (src/Bool3.inlines.hh:30-41). -/
def lor (a b : Bool3) : Bool3 :=
  if a = always ∨ b = always then always
  else if a = never ∧ b = never then never
  else maybe

/-- `land`, also `operator&&` (src/Bool3.inlines.hh:43-54). -/
def land (a b : Bool3) : Bool3 :=
  if a = never ∨ b = never then never
  else if a = always ∧ b = always then always
  else maybe

/-- `lnot`, also `operator!` (src/Bool3.inlines.hh:56-67). -/
def lnot (a : Bool3) : Bool3 :=
  if a = never then always
  else if a = always then never
  else maybe

/-- `is_strong` (src/Bool3.inlines.hh:69-72). -/
def isStrong (a : Bool3) : Bool :=
  a = always || a = never

/-- `stronger` (src/Bool3.inlines.hh:74-77). -/
def stronger (a b : Bool3) : Bool :=
  b = maybe && (a = always || a = never)

/-- `stronger_eq` (src/Bool3.inlines.hh:79-82). -/
def strongerEq (a b : Bool3) : Bool :=
  a = b || (b = maybe && (a = always || a = never))

end Bool3
end Purrs
