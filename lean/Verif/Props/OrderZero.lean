import Verif.Props.CapstoneLinear
import Verif.Props.WeightedExtract

/-!
# Recurrences of order zero, `x(n) = g(n)`: from the right-hand side, through any calls, to the answer (C155)
-/

set_option linter.unusedSectionVars false

namespace Purrs.OrderZero

open Function (update update_of_ne update_self)
open OrderRed (withX eval_noX SolvesAt idxNe)
open Classify (St classify Steps)
open SolveLin (solveLinear)
open RecState

section
variable {K : Type} [Field K] [CharZero K] {I : Interp K}

/-- Without decrements no coefficient is recorded. -/
theorem steps_coeffs {n : String} {k : ℕ} {as : List Expr} {st st' : St} (h : Steps n k as st st')
    (hd : (as.flatMap fun a => (factors a).filterMap (Classify.xDecr n)) = []) : st'.coeffs = st.coeffs := by
  induction h with
  | nil => rfl
  | @cons k a as st st1 st2 p hty hk hp ha hs ih =>
    rw [List.flatMap_cons, List.append_eq_nil_iff] at hd
    rw [ih hd.2]
    have h1 := hp.decs
    rw [hd.1] at h1
    cases p with
    | dec i c => simp [Classify.Piece.decs] at h1
    | div d c => obtain ⟨-, rfl⟩ := ha; rfl
    | inh e =>
      have ha : st1 = Classify.addInhom e st := ha
      subst ha
      rfl

/-- The recorded inhomogeneous term is the right-hand side. -/
theorem value {n : String} {ms : ℕ} {e : Expr} {st : St} (h : classify n ms e = .ok st) (ht : st.ty = .orderZero) (X : K → K) (ρ : String → K) (v : K) :
    eval (withX I X) (update ρ n v) e = eval (withX I X) (update ρ n v) st.inhom := by
  rw [Classify.C36_identity h (Or.inl ht) I X ρ v]
  have h1 := ((Classify.C36_type h).2.2.2.1.mp ht).2.1
  have h2 : st.coeffs = [] := steps_coeffs (Classify.classify_steps h) h1
  rw [h2]
  simp

/-- The parts behind the object are those of the library. -/
structure Wired (E : Engine) (OL : SolveLin.Ops) (O : OnIC.Ops) (n : String) (e : Expr) (st : St) : Prop where
  classify : E.classify e = (.success, ⟨.orderZero, 0, 0, 0⟩, e)
  solve : ∀ b, E.solve e ⟨.orderZero, 0, 0, 0⟩ b =
    match solveLinear OL n e st.inhom 0 0 false (.num 0) none none with
    | some x => .ok x
    | none => .error .tooComplex
  onIC : ∃ d w g z s, ∀ m x, E.onIC e ⟨.orderZero, 0, 0, 0⟩ m x =
    (OnIC.evaluate O n ⟨.orderZero, 0, 0, 0⟩ d w g z s m x).getD (.num 0)

/-- What is assumed of the simplification and of the renaming of the symbols: they keep the values and do not bring in `x`. -/
structure Keeps (I : Interp K) (n : String) (ρ : String → K) (g : Expr → Expr) : Prop where
  noX : ∀ x, hasX x = false → hasX (g x) = false
  val : ∀ x, hasX x = false → ∀ X (N : ℕ), eval (withX I X) (update ρ n (N : K)) (g x) = eval (withX I X) (update ρ n (N : K)) x

/-- The answer is an expression without `x` that has the values of the right-hand side. -/
def Same (I : Interp K) (n : String) (ρ : String → K) (e x : Expr) : Prop :=
  hasX x = false ∧ ∀ (X : K → K) (N : ℕ), eval (withX I X) (update ρ n (N : K)) x = eval (withX I X) (update ρ n (N : K)) e

theorem hasX_of_addends {e : Expr} (h : hasX e = false) : ∀ a ∈ addends e, hasX a = false := by
  cases e <;> simp_all [addends, hasX]

theorem hasX_of_factors {e : Expr} (h : hasX e = false) : ∀ a ∈ factors e, hasX a = false := by
  cases e <;> simp_all [factors, hasX]

theorem no_x {n : String} {e : Expr} (h : hasX e = false) : Classify.decrements n e = [] ∧ Classify.divisors n e = [] := by
  constructor
  · rw [Classify.decrements, List.flatMap_eq_nil_iff]
    intro a ha
    rw [List.filterMap_eq_nil_iff]
    intro f hf
    have := hasX_of_factors (hasX_of_addends h a ha) f hf
    unfold Classify.xDecr
    split
    · simp [hasX] at this
    · rfl
  · rw [Classify.divisors, List.flatMap_eq_nil_iff]
    intro a ha
    rw [List.filterMap_eq_nil_iff]
    intro f hf
    have := hasX_of_factors (hasX_of_addends h a ha) f hf
    unfold Classify.xDiv
    split
    · simp [hasX] at this
    · rfl

/-- A right-hand side without the unknown is classified, if at all, as of order zero, and the recorded term is without the unknown. -/
theorem known {n : String} {ms : ℕ} {e : Expr} {st : St} (h : classify n ms e = .ok st) (he : hasX e = false) (hne : addends e ≠ []) :
    st.ty = .orderZero ∧ hasX st.inhom = false := by
  obtain ⟨h1, h2⟩ := no_x (n := n) he
  refine ⟨(Classify.C36_type h).2.2.2.1.mpr ⟨hne, h1, h2⟩, ?_⟩
  refine (Classify.steps_forall (P := fun c => hasX c = false) (by simp [hasX]) (by simp [hasX]) (fun a b => WeightedAvg.hasX_addE)
    (fun a b => WeightedAvg.hasX_mulE) (Classify.classify_steps h) ?_ (by simp [Classify.initSt, hasX])).2.2
  intro a ha f hf _
  simp only [Classify.others, List.mem_filter] at hf
  exact hasX_of_factors (hasX_of_addends he a ha) f hf.1

variable {E : Engine} {OL : SolveLin.Ops} {O : OnIC.Ops} {n : String} {ρ : String → K} {e : Expr} {ms : ℕ} {st : St}

theorem closed (h : classify n ms e = .ok st) (ht : st.ty = .orderZero) (hx : hasX st.inhom = false) (hW : Wired E OL O n e st)
    (hs : Keeps I n ρ OL.simp) (hr : Keeps I n ρ E.rename) : Capstone.Closed E e (Same I n ρ e) fun _ => Same I n ρ e := by
  have hc := hW.classify
  have hren : ∀ x, Same I n ρ e x → Same I n ρ e (E.rename x) :=
    fun x hx => ⟨hr.noX x hx.1, fun X N => (hr.val x hx.1 X N).trans (hx.2 X N)⟩
  have hon : ∀ x m, Same I n ρ e x → E.onIC (E.classify e).2.2 (E.classify e).2.1 m x = x := by
    intro x m hx
    rw [hc]
    obtain ⟨d, w, g, z, s, ho⟩ := hW.onIC
    have hic : Verify.hasIC n x = false := by simp [Verify.hasIC, hx.1]
    simp only [ho, OnIC.evaluate, hic, if_true, Option.getD_some]
  refine ⟨by rw [hc]; simp, by rw [hc]; exact Or.inl rfl, ?_, hren, fun x m hx _ => by rw [hon x m hx]; exact hx,
    fun x m hx _ => by rw [hon x m hx]; exact hren x hx⟩
  intro b x h'
  rw [hc] at h'
  simp only at h'
  rw [hW.solve] at h'
  simp only [solveLinear, if_true, Except.ok.injEq] at h'
  subst h'
  exact ⟨hs.noX _ hx, fun X N => (hs.val _ hx X N).trans (value h ht X ρ _).symm⟩

/-- **C155.**  The user writes `x(n) = e` where `e` is without `x`.  Every answer of `exact_solution()`, `lower_bound()` or `upper_bound()`, after any calls
and whatever initial conditions were given, is an expression without `x`, and the sequence that satisfies the recurrence is the one that has its values. -/
theorem C155_answer_is_solution (h : classify n ms e = .ok st) (he : hasX e = false) (hne : addends e ≠ []) (hW : Wired E OL O n e st)
    (hs : Keeps I n ρ OL.simp) (hr : Keeps I n ρ E.rename) {s : RecState} (hR : RecReach E e s) {w : Which} {v : Expr} (hv : (query E w s).2 = some v) :
    hasX v = false ∧ ∀ X : K → K, SolvesAt I n e ρ X 0 ↔ ∀ (N : ℕ) (Y : K → K), X (N : K) = eval (withX I Y) (update ρ n (N : K)) v := by
  obtain ⟨ht, hx⟩ := known h he hne
  obtain ⟨h1, h2, -⟩ := Capstone.answers (closed h ht hx hW hs hr) hR hv
  have hS : Same I n ρ e v := by
    by_cases hi : s.ics = []
    · exact h1 hi
    · exact (h2 hi).2
  refine ⟨hS.1, fun X => ⟨fun hX N Y => ?_, fun hX N _ => ?_⟩⟩
  · rw [hX N (by omega), eval_noX I Y X _ hS.1, hS.2 X N]
  · rw [hX N X, hS.2 X N]

/-- **C155**, the values: the evaluation at any `N > 0`, and at 0 if there is an initial condition at 0 (whose value is not used), gives the value of the
sequence. -/
theorem C155_evaluation_is_value (h : classify "n" ms e = .ok st) (he : hasX e = false) (hne : addends e ≠ [])
    (hW : Wired E OL O "n" e st) (hs : Keeps I "n" ρ OL.simp) (hr : Keeps I "n" ρ E.rename) {s : RecState} (hR : RecReach E e s) {w : Which} {v : Expr}
    (hv : (query E w s).2 = some v) (hb : idxNe "n" v = true) {X : K → K} (hX : SolvesAt I "n" e ρ X 0) {N : ℕ}
    (hN : N = 0 → ∃ u, (0, u) ∈ s.ics) :
    ∃ u, (evaluate (query E w) s N).2 = .value u ∧ ∀ Y, eval (withX I Y) ρ u = X N := by
  obtain ⟨ht, hx⟩ := known h he hne
  obtain ⟨h1, h2⟩ := C155_answer_is_solution h he hne hW hs hr hR hv
  obtain ⟨-, -, hinfo⟩ := Capstone.answers (closed h ht hx hW hs hr) hR hv
  rw [hW.classify] at hinfo
  simp only at hinfo
  have hck : checkNumber s (N : ℤ) = none := by
    unfold checkNumber
    rw [if_neg (by omega), hinfo]
    simp only
    rw [if_neg]
    rintro ⟨h3, h4⟩
    have h0 : N = 0 := by
      have : (N : ℤ) ≤ 0 := by exact_mod_cast h3
      omega
    obtain ⟨u, hu⟩ := hN h0
    rw [Option.isNone_iff_eq_none, List.find?_eq_none] at h4
    exact h4 _ hu (by simp [h0])
  rw [evaluate_eq, hv]
  simp only [hck]
  rw [if_pos (by rw [hinfo])]
  refine ⟨_, rfl, fun Y => ?_⟩
  have := EvalRules.eval_substNum (I := withX I Y) "n" hb ((N : ℤ) : ℚ) ρ
  rw [this, (h2 X).mp hX N Y]
  simp

/-- **C155**, the refusals: at a negative index, and at 0 without an initial condition there, the evaluation of an answer is refused. -/
theorem C155_refusals (h : classify n ms e = .ok st) (he : hasX e = false) (hne : addends e ≠ []) (hW : Wired E OL O n e st)
    (hs : Keeps I n ρ OL.simp) (hr : Keeps I n ρ E.rename) {s : RecState} (hR : RecReach E e s) {w : Which} {v : Expr} (hv : (query E w s).2 = some v) :
    (∀ N : ℤ, N < 0 → (evaluate (query E w) s N).2 = .invalidArgument) ∧
    ((∀ p ∈ s.ics, p.1 ≠ 0) → (evaluate (query E w) s 0).2 = .invalidArgument) := by
  obtain ⟨ht, hx⟩ := known h he hne
  obtain ⟨-, -, hinfo⟩ := Capstone.answers (closed h ht hx hW hs hr) hR hv
  rw [hW.classify] at hinfo
  simp only at hinfo
  constructor
  · intro N hN
    rw [evaluate_eq, hv]
    simp [checkNumber, hN]
  · intro hi
    have h0 : s.ics.find? (fun p => p.1 = (0 : ℤ).toNat) = none := by
      rw [List.find?_eq_none]
      intro p hp
      simpa using hi p hp
    have hck : checkNumber s 0 = some .invalidArgument := by
      unfold checkNumber
      rw [if_neg (by omega), hinfo, h0]
      simp
    rw [evaluate_eq, hv, hck]

end

end Purrs.OrderZero
