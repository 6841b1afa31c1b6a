import Verif.Model.RealInterp

/-!
# C23: collecting terms
-/

set_option linter.unusedSectionVars false

namespace Purrs

variable {K : Type} [Field K] [CharZero K] (I : Interp K)

/-- Specification: the factor is `x` or a power of `x`. -/
def IsXFactor (x f : Expr) : Prop := f = x ∨ ∃ k, f = .pow x k

instance (x f : Expr) : Decidable (IsXFactor x f) :=
  match f with
  | .pow b k => if h : b = x then .isTrue (Or.inr ⟨k, by rw [h]⟩)
      else if h2 : Expr.pow b k = x then .isTrue (Or.inl h2)
      else .isFalse (by rintro (h3 | ⟨k', h3⟩); exacts [h2 h3, h (by injection h3)])
  | .num q => if h : Expr.num q = x then .isTrue (Or.inl h)
      else .isFalse (by rintro (h3 | ⟨k', h3⟩); exacts [h h3, by cases h3])
  | .const q => if h : Expr.const q = x then .isTrue (Or.inl h)
      else .isFalse (by rintro (h3 | ⟨k', h3⟩); exacts [h h3, by cases h3])
  | .sym q => if h : Expr.sym q = x then .isTrue (Or.inl h)
      else .isFalse (by rintro (h3 | ⟨k', h3⟩); exacts [h h3, by cases h3])
  | .add q => if h : Expr.add q = x then .isTrue (Or.inl h)
      else .isFalse (by rintro (h3 | ⟨k', h3⟩); exacts [h h3, by cases h3])
  | .mul q => if h : Expr.mul q = x then .isTrue (Or.inl h)
      else .isFalse (by rintro (h3 | ⟨k', h3⟩); exacts [h h3, by cases h3])
  | .fn g q => if h : Expr.fn g q = x then .isTrue (Or.inl h)
      else .isFalse (by rintro (h3 | ⟨k', h3⟩); exacts [h h3, by cases h3])
  | .binder a b c d f => if h : Expr.binder a b c d f = x then .isTrue (Or.inl h)
      else .isFalse (by rintro (h3 | ⟨k', h3⟩); exacts [h h3, by cases h3])

/-- Specification: GiNaC's canonical form has at most one power of `x` per product. -/
def OneXPerProduct (x : Expr) : Expr → Prop
  | .mul l => (l.filter (fun f => decide (IsXFactor x f))).length ≤ 1
  | _ => True

theorem collectFactor_spec (x : Expr) (ρ : String → K)
    (hpw : ∀ k, I.pw (eval I ρ x) (k - 1) * eval I ρ x = I.pw (eval I ρ x) k)
    (l : List Expr) (hl : (l.filter (fun f => decide (IsXFactor x f))).length ≤ 1) :
    let r := l.foldr (collectFactor x) (false, .num 1)
    (r.1 = true ↔ (l.filter (fun f => decide (IsXFactor x f))).length = 1) ∧
    (r.1 = true → eval I ρ r.2 * eval I ρ x = (l.map (eval I ρ)).prod) ∧
    (r.1 = false → eval I ρ r.2 = (l.map (eval I ρ)).prod) := by
  induction l with
  | nil => simp [eval]
  | cons a l ih =>
    simp only [List.foldr_cons, List.map_cons, List.prod_cons]
    by_cases hx : IsXFactor x a
    · have h0 : (l.filter (fun f => decide (IsXFactor x f))).length = 0 := by
        simp [hx] at hl; simpa using hl
      obtain ⟨i1, i2, i3⟩ := ih (by omega)
      set r := l.foldr (collectFactor x) (false, Expr.num 1) with hr
      have hr1 : r.1 = false := by
        by_contra hc
        have := i1.mp (by simpa using hc)
        omega
      have i3' := i3 hr1
      have e1 : (List.filter (fun f => decide (IsXFactor x f)) (a :: l)).length = 1 := by
        simp [hx]; simpa using h0
      rw [e1]
      unfold collectFactor
      by_cases ha : a = x
      · simp only [ha, if_true]
        refine ⟨by simp, fun _ => by rw [i3']; ring, by simp⟩
      · obtain ⟨k, hk⟩ := hx.resolve_left ha
        subst hk
        rw [if_neg ha]
        simp only [if_true]
        refine ⟨by simp, fun _ => ?_, by simp⟩
        rw [eval_mulE, eval_powE, eval_subE, i3']
        simp only [eval]
        rw [← hpw (eval I ρ k)]
        push_cast
        ring
    · have e1 : (List.filter (fun f => decide (IsXFactor x f)) (a :: l))
          = List.filter (fun f => decide (IsXFactor x f)) l := by
        simp [hx]
      rw [e1] at hl ⊢
      obtain ⟨i1, i2, i3⟩ := ih hl
      set r := l.foldr (collectFactor x) (false, Expr.num 1) with hr
      have e2 : collectFactor x a r = (r.1, mulE r.2 a) := by
        unfold collectFactor
        have : a ≠ x := fun h => hx (Or.inl h)
        rw [if_neg this]
        cases a with
        | pow b k =>
          have : b ≠ x := fun h => hx (Or.inr ⟨k, by rw [h]⟩)
          simp [this]
        | _ => rfl
      rw [e2]
      refine ⟨i1, fun h => ?_, fun h => ?_⟩
      · rw [eval_mulE, ← i2 h]; ring
      · rw [eval_mulE, i3 h]; ring

theorem collectAddend_spec (x : Expr) (ρ : String → K)
    (hpw : ∀ k, I.pw (eval I ρ x) (k - 1) * eval I ρ x = I.pw (eval I ρ x) k)
    (a : Expr) (ha : OneXPerProduct x a) (st : Expr × Expr) :
    eval I ρ (collectAddend x a st).1 * eval I ρ x + eval I ρ (collectAddend x a st).2
      = eval I ρ st.1 * eval I ρ x + eval I ρ st.2 + eval I ρ a := by
  cases a with
  | mul l =>
    obtain ⟨s1, s2, s3⟩ := collectFactor_spec I x ρ hpw l ha
    simp only [collectAddend]
    split
    · rename_i h
      simp only [eval_addE]
      have := s2 h
      simp only [eval]
      rw [← this]; ring
    · simp only [eval_addE]; ring
  | pow b k =>
    simp only [collectAddend]
    split
    · rename_i h
      simp only [eval_addE, h, eval]; push_cast; ring
    · split
      · rename_i h
        subst h
        simp only [eval_addE, eval_powE, eval_subE, eval]
        rw [← hpw (eval I ρ k)]; push_cast; ring
      · simp only [eval_addE]; ring
  | _ =>
    simp only [collectAddend]
    split
    · rename_i h; rw [eval_addE, h]; simp only [eval]; push_cast; ring
    · simp only [eval_addE]; ring

/-- Collecting `x` in a sum preserves the value, and the returned coefficient is the
quotient of the collected part by `x`: `e = rest + x·coeff` where the result is
literally `rest + x·coeff`.  The hypothesis `hpw` is the power law `X^(k-1)·X = X^k` at
the value `X` of `x` (it holds at every nonzero `X` for the usual powers). -/
theorem C23_collectTerm_value (x : Expr) (l : List Expr) (ρ : String → K)
    (hpw : ∀ k, I.pw (eval I ρ x) (k - 1) * eval I ρ x = I.pw (eval I ρ x) k)
    (hl : ∀ a ∈ l, OneXPerProduct x a) :
    eval I ρ (collectTerm x (.add l)).1 = eval I ρ (.add l) ∧
    ∃ rest, (collectTerm x (.add l)).1 = addE rest (mulE x (collectTerm x (.add l)).2) := by
  refine ⟨?_, _, rfl⟩
  simp only [collectTerm, eval_addE, eval_mulE, eval]
  have : ∀ m : List Expr, (∀ a ∈ m, OneXPerProduct x a) →
      eval I ρ (m.foldr (collectAddend x) (.num 0, .num 0)).1 * eval I ρ x
        + eval I ρ (m.foldr (collectAddend x) (.num 0, .num 0)).2 = (m.map (eval I ρ)).sum := by
    intro m hm
    induction m with
    | nil => simp [eval]
    | cons a m ih =>
      simp only [List.foldr_cons, List.map_cons, List.sum_cons]
      rw [collectAddend_spec I x ρ hpw a (hm a (by simp)), ih fun b hb => hm b (by simp [hb])]
      ring
  rw [← this l hl]; ring

/-- Specification: the addend is `x`, a power of `x`, or a product with such a factor. -/
def XAddend (x : Expr) : Expr → Prop
  | .mul l => ∃ f ∈ l, IsXFactor x f
  | e => IsXFactor x e

instance (x a : Expr) : Decidable (XAddend x a) := by
  unfold XAddend; cases a <;> infer_instance

theorem collectFactor_found (x : Expr) (l : List Expr) :
    (l.foldr (collectFactor x) (false, .num 1)).1 = true ↔ ∃ f ∈ l, IsXFactor x f := by
  induction l with
  | nil => simp
  | cons a l ih =>
    rw [List.foldr_cons, List.exists_mem_cons_iff, ← ih]
    generalize l.foldr (collectFactor x) (false, .num 1) = r
    unfold collectFactor IsXFactor
    by_cases ha : a = x
    · simp [ha]
    · rw [if_neg ha]
      cases a with
      | pow b k =>
        by_cases hb : b = x
        · simp [hb]
        · simp only [hb, if_false, Expr.pow.injEq]
          simp [ha]
      | _ => simp [ha]

theorem collectAddend_rest (x a : Expr) (st : Expr × Expr) :
    (XAddend x a → (collectAddend x a st).2 = st.2) ∧
    (¬ XAddend x a → (collectAddend x a st).2 = addE st.2 a) := by
  cases a with
  | mul l =>
    simp only [collectAddend, XAddend]
    refine ⟨fun h => ?_, fun h => ?_⟩
    · rw [if_pos ((collectFactor_found x l).mpr h)]
    · rw [if_neg (fun c => h ((collectFactor_found x l).mp c))]
  | pow b k =>
    simp only [collectAddend, XAddend, IsXFactor]
    refine ⟨fun h => ?_, fun h => ?_⟩
    · split_ifs with h1 h2
      · rfl
      · rfl
      · rcases h with h | ⟨k', h⟩
        · exact absurd h h1
        · injection h with h; exact absurd h h2
    · rw [if_neg (fun c => h (Or.inl c)), if_neg (fun c => h (Or.inr ⟨k, by rw [c]⟩))]
  | _ =>
    simp only [collectAddend, XAddend, IsXFactor]
    refine ⟨fun h => ?_, fun h => ?_⟩
    · rw [if_pos]
      rcases h with h | ⟨k', h⟩
      · exact h
      · cases h
    · rw [if_neg (fun c => h (Or.inl c))]

/-- Everything is collected: what is left outside the collected term is the sum of exactly those
addends that are neither `x`, nor a power of `x`, nor a product with such a factor. -/
theorem C23_collectTerm_complete (x : Expr) (l : List Expr) :
    ∃ rest, (collectTerm x (.add l)).1 = addE rest (mulE x (collectTerm x (.add l)).2) ∧
      rest = (l.filter fun a => ¬ XAddend x a).foldr (fun a acc => addE acc a) (.num 0) := by
  refine ⟨_, rfl, ?_⟩
  induction l with
  | nil => rfl
  | cons a l ih =>
    rw [List.foldr_cons]
    by_cases h : XAddend x a
    · rw [(collectAddend_rest x a _).1 h, ih]; simp [h]
    · rw [(collectAddend_rest x a _).2 h, ih]; simp [h]

/-- On an expression that is not a sum the expression itself is returned. -/
theorem C23_collectTerm_nonsum (x e : Expr) (h : ∀ l, e ≠ .add l) :
    (collectTerm x e).1 = e := by
  cases e <;> simp_all [collectTerm]

/-- Refutation of "the coefficient returned is the coefficient of `x`" for single terms:
for `2·a` the coefficient of `a` is reported to be `1`. -/
theorem C103_coefficient_refuted :
    collectTerm (.sym "a") (.mul [.num 2, .sym "a"]) = (.mul [.num 2, .sym "a"], .num 1) := by
  simp [collectTerm]

/-- The power law used as hypothesis holds for the usual real powers at each positive value. -/
theorem realPowLaw (X k : ℝ) (hX : 0 < X) : X ^ (k - 1) * X = X ^ k := by
  rw [Real.rpow_sub_one hX.ne']; field_simp

/-- Non-vacuity: `a·b + a² + 3` with `x = a` at `a = 2`. -/
example (ξ : ℝ → ℝ) : let l := [Expr.mul [.sym "a", .sym "b"], .pow (.sym "a") (.num 2), .num 3]
    eval (realInterp ξ) (fun _ => 2) (collectTerm (.sym "a") (.add l)).1
      = eval (realInterp ξ) (fun _ => 2) (.add l) := by
  intro l
  refine (C23_collectTerm_value (realInterp ξ) (.sym "a") l (fun _ => 2) ?_ ?_).1
  · intro k; simp only [eval]; exact realPowLaw 2 k (by norm_num)
  · intro a ha
    simp only [l, List.mem_cons, List.not_mem_nil, or_false] at ha
    rcases ha with rfl | rfl | rfl
    · simp [OneXPerProduct, IsXFactor, List.filter]
    · trivial
    · trivial

end Purrs
