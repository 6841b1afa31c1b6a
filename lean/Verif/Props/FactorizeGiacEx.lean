import Verif.Props.FactorizeGiac

/-!
# C162: concrete cases and refutations
-/

namespace Purrs
namespace Giac

open Expr Blackboard

/-- A small library: trees are built without simplification; `factor` takes a common integer
out of `p + q·s` with `p = q` and writes `b^(-1)` as an inverse. -/
def demoFactor : Gen → Gen
  | .plus [.plus [.int z, .int p], .prod [.prod [.int o, s], .int q]] =>
      if z = 0 ∧ o = 1 ∧ p = q then .prod [.int p, .plus [.int 1, s]]
      else .plus [.plus [.int z, .int p], .prod [.prod [.int o, s], .int q]]
  | .pow b (.int k) => if k = -1 then .inv b else .pow b (.int k)
  | g => g

def demoLib : Lib := ⟨fun a b => .plus [a, b], fun a b => .prod [a, b], .pow, demoFactor⟩

theorem demoLib_sound {K : Type} [Field K] (I : Interp K) : Sound I demoLib where
  add ρ a b := by simp [demoLib, gval]
  mul ρ a b := by simp [demoLib, gval]
  pow ρ a b := by simp [demoLib, gval]
  factor ρ a := by
    simp only [demoLib]
    unfold demoFactor
    split
    · split
      · rename_i h; obtain ⟨rfl, rfl, rfl⟩ := h; simp [gval]; ring
      · rfl
    · split
      · rename_i h
        subst h
        have := I.pw_int (gval I ρ (by assumption)) (-1)
        simp only [gval]
        rw [this]; simp
      · rfl
    · rfl
  add_ids a b := by simp [demoLib, idents]
  mul_ids a b := by simp [demoLib, idents]
  pow_ids a b := by simp [demoLib, idents]
  factor_ids a := by
    simp only [demoLib]
    unfold demoFactor
    split
    · split
      · simp [idents]
      · simp
    · split
      · simp [idents]
      · simp
    · simp

theorem sorted_one (z : String) (e : Expr) :
    (Blackboard.empty.insertDef z e).sortedNames = [z] := by
  simp [sortedNames, insertDef, indexInsert, Blackboard.empty]

theorem lookup_empty (n : ℕ) (e : Expr) : lookup ⟨Blackboard.empty, n⟩ e =
    some (.idnt (autoName n), ⟨Blackboard.empty.insertDef (autoName n) e, n + 1⟩) := by
  simp [lookup, findSymbol, findLoop, Blackboard.empty]

theorem rewrite_other (B : Blackboard) (k : ℕ) (z : String) (h : B.find z = none) :
    rewriteM k B (.sym z) = some (.sym z, B) := by
  rw [rewriteM]; simp [h]

theorem rewrite_num (B : Blackboard) (k : ℕ) (q : ℚ) : rewriteM k B (.num q) = some (.num q, B) := by
  rw [rewriteM]

theorem oldX (n : ℕ) : Old n "x" := user_old n "x" (by decide)
theorem oldY (n : ℕ) : Old n "y" := user_old n "y" (by decide)

theorem rewrite_x (k : ℕ) : ∃ B', rewriteM (k + 1) (empty.insertDef (autoName 0) (sym "x")) (sym (autoName 0))
    = some (sym "x", B') := by
  rw [rewriteM]
  have n0 : autoName 0 ≠ "x" := by decide
  have : ∀ k, rewriteM k (empty.insertDef (autoName 0) (sym "x")) (sym "x")
      = some (sym "x", empty.insertDef (autoName 0) (sym "x")) := by
    intro k; rw [rewriteM]
    simp [Blackboard.find, insertDef, indexInsert, empty, n0]
  simp [Blackboard.find, insertDef, indexInsert, empty, Definition.new]
  simp [Blackboard.find, insertDef, indexInsert, empty, Definition.new] at this
  simp [this]


/-- The concrete case: `6·x + 6` is split into `6` and `1 + x`. -/
theorem C162_nonvacuous : OldExpr 0 (.add [.mul [.num 6, .sym "x"], .num 6]) ∧
    factorizeGiac demoLib 3 0 (.add [.mul [.num 6, .sym "x"], .num 6])
      = some (.num 6, .add [.num 1, .sym "x"], 2) ∧
    SameDigits 0 2 ∧ ∀ I : Interp ℚ, Sound I demoLib := by
  refine ⟨?_, ?_, sameDigits_ten.sub (le_refl _) (by norm_num), fun I => demoLib_sound I⟩
  · intro s hs
    have : s = "x" := by
      obtain ⟨a, h1, h⟩ := sub_add.mp hs
      simp only [List.mem_cons, List.not_mem_nil, or_false] at h1
      rcases h1 with rfl | rfl
      · obtain ⟨b, h1, h⟩ := sub_mul.mp h
        simp only [List.mem_cons, List.not_mem_nil, or_false] at h1
        rcases h1 with rfl | rfl
        · simp [sub_num] at h
        · rwa [sub_sym] at h
      · simp [sub_num] at h
    exact this ▸ oldX 0
  · simp [factorizeGiac, factWith, fwd, lookup_empty, small, demoLib, demoFactor, split, isNumFactor,
      back, mulE, addE, idents, rewrite_num]
    have hl : (empty.insertDef (autoName 0) (sym "x")).defs.length = 0 + 1 := by simp [insertDef, empty]
    obtain ⟨B', h⟩ := rewrite_x 0
    rw [hl, rewriteM]
    simp [rewrite_num, h, addE]

/-- The condition of `C162_numeric_factor_partial` is met in the concrete case. -/
theorem C162_numeric_nonvacuous : ∀ g w,
    fwd demoLib 3 ⟨Blackboard.empty, 0⟩ (.add [.mul [.num 6, .sym "x"], .num 6]) = some (g, w) →
    NoSymbolicInverse demoLib g := by
  intro g w h
  simp [fwd, lookup_empty, small, demoLib] at h
  obtain ⟨rfl, -⟩ := h
  intro x hx y hy
  subst hy
  simp [demoLib, demoFactor] at hx

theorem lookup_two : lookup ⟨Blackboard.empty.insertDef (autoName 9) (.sym "a"), 10⟩ (.sym "b") =
    some (.idnt (autoName 10),
      ⟨(Blackboard.empty.insertDef (autoName 9) (.sym "a")).insertDef (autoName 10) (.sym "b"), 11⟩) := by
  unfold lookup findSymbol
  dsimp only
  rw [sorted_one]
  simp [findLoop, insertDef, Blackboard.empty, Definition.new]

theorem lookup_three :
    lookup ⟨(Blackboard.empty.insertDef (autoName 9) (.sym "a")).insertDef (autoName 10) (.sym "b"), 11⟩ (.sym "a") =
    some (.idnt (autoName 10),
      ⟨(Blackboard.empty.insertDef (autoName 9) (.sym "a")).insertDef (autoName 10) (.sym "b"), 12⟩) := by
  unfold lookup
  dsimp only
  rw [C28_find_symbol_refuted.2.2]

/-- **C162 fails** when the names of the unnamed symbols pass from nine to ten: `a·b·a` becomes
`a·b·b`. -/
theorem C162_factorize_refuted :
    let e : Expr := .mul [.sym "a", .sym "b", .sym "a"]
    OldExpr 9 e ∧ (∀ I : Interp ℚ, Sound I demoLib) ∧
    ∃ a b n', factorizeGiac demoLib 2 9 e = some (a, b, n') ∧
      ∀ I : Interp ℚ, ∃ ρ, eval I ρ a * eval I ρ b ≠ eval I ρ e := by
  intro e
  refine ⟨?_, fun I => demoLib_sound I, ?_⟩
  · intro s hs
    obtain ⟨a, h1, h⟩ := sub_mul.mp hs
    simp only [List.mem_cons, List.not_mem_nil, or_false] at h1
    rcases h1 with rfl | rfl | rfl <;> rw [sub_sym] at h <;> subst h
    · exact user_old 9 "a" (by decide)
    · exact user_old 9 "b" (by decide)
    · exact user_old 9 "a" (by decide)
  · have n9 : autoName 9 = "symbol9" := by decide
    have n10 : autoName 10 = "symbol10" := by decide
    refine ⟨.num 1, .mul [.sym "b", .sym "a", .sym "b"], 15, ?_, ?_⟩
    · simp [e, factorizeGiac, factWith, fwd, lookup_empty, lookup_two, lookup_three, small, demoLib, demoFactor,
        split, isNumFactor, back, mulE, addE, idents, rewrite_num]
      generalize hB : (Blackboard.empty.insertDef (autoName 9) (sym "a")).insertDef (autoName 10) (sym "b") = B
      have f9 : B.find (autoName 9) = some 0 := by rw [← hB]; decide
      have f10 : B.find (autoName 10) = some 1 := by rw [← hB]; decide
      have fa : B.find "a" = none := by rw [← hB]; decide
      have fb : B.find "b" = none := by rw [← hB]; decide
      have d : B.defs = [Definition.new (.sym "a"), Definition.new (.sym "b")] := by rw [← hB]; rfl
      have st : B.stamp = 3 := by rw [← hB]; rfl
      clear hB
      have f' : ∀ i v z, (B.setExp i v).find z = B.find z := fun _ _ _ => rfl
      have r1 : rewriteM 2 B (.sym (autoName 10)) = some (.sym "b", B.setExp 1 (.sym "b")) := by
        rw [rewriteM, f10]; simp [d, st, Definition.new, rewrite_other, fb]
      have r2 : rewriteM 2 (B.setExp 1 (.sym "b")) (.sym (autoName 9))
          = some (.sym "a", (B.setExp 1 (.sym "b")).setExp 0 (.sym "a")) := by
        rw [rewriteM, f', f9]; simp [d, st, Definition.new, setExp]
        rw [rewrite_other]
        · simp
        · exact fa
      have r3 : rewriteM 2 ((B.setExp 1 (.sym "b")).setExp 0 (.sym "a")) (.sym (autoName 10))
          = some (.sym "b", (B.setExp 1 (.sym "b")).setExp 0 (.sym "a")) := by
        rw [rewriteM]
        have : ((B.setExp 1 (.sym "b")).setExp 0 (.sym "a")).find (autoName 10) = some 1 := f10
        rw [this]; simp [d, st, Definition.new, setExp]
      have hl : B.defs.length = 2 := by simp [d]
      rw [hl, rewriteM]
      simp [r1, r2, r3, mulE]
    · intro I
      refine ⟨fun s => if s = "a" then 1 else 2, ?_⟩
      simp [e, eval]

/-- **C162 fails** for the split: a factor that is an inverse goes to the numeric factors even
when it contains symbols. -/
theorem C162_numeric_factor_refuted :
    (∀ I : Interp ℚ, Sound I demoLib) ∧
    factorizeGiac demoLib 3 0 (.pow (.sym "x") (.num (-1)))
      = some (.pow (.sym "x") (.num (-1)), .num 1, 2) := by
  refine ⟨fun I => demoLib_sound I, ?_⟩
  have hne : ¬ ((-1 : ℚ) = 1) := by norm_num
  simp [factorizeGiac, factWith, fwd, lookup_empty, small, demoLib, demoFactor, split, isNumFactor,
      back, mulE, powE, idents, rewrite_num, hne]
  have hl : (empty.insertDef (autoName 0) (sym "x")).defs.length = 0 + 1 := by simp [insertDef, empty]
  obtain ⟨B', h⟩ := rewrite_x 0
  rw [hl, rewriteM]
  simp [rewrite_num, h, powE, hne]

end Giac
end Purrs
