import Verif.Model.WeightedExtract
import Verif.Props.Collect
import Verif.Props.VerifyWA
import Verif.Props.FirstIndex
import Verif.Props.CapstoneVar

/-!
# C153: what is recorded for a weighted average describes the right-hand side written by the user

The specification: `x(n) = rhs` holds at `N` iff `x(N) = w(N) (x(n_0) + ... + x(u(N))) + g(N)` with the recorded weight, inhomogeneous term and
limits.
-/

set_option linter.unusedSectionVars false

namespace Purrs.WeightedExtract

open Finset
open Function (update update_of_ne update_self)
open OrderRed (withX eval_noX SolvesAt IsSolution idxNe)
open Classify (isWeightedSum classify loopFrom summand single product factorStep)
open WeightedAvg (shiftN rewriteWA WA upperStep SolvesWA WAAt Regular computeWA)
open Verify (SumMeaning)

variable {K : Type} [Field K] [CharZero K] {I : Interp K}

/-! ### The sum that is found -/

theorem factorX_ne {n : String} {ms k : ℕ} {arg : Expr} {l : Classify.Loop} : Classify.factorX n ms k arg l ≠ .weighted := by
  unfold Classify.factorX
  intro h
  by_cases c1 : arg = .sym n
  · rw [if_pos c1] at h; cases h
  rw [if_neg c1] at h
  by_cases c2 : (!has (.sym n) arg) = true
  · rw [if_pos c2] at h; cases h
  rw [if_neg c2] at h
  by_cases c3 : hasParameters n arg = true
  · rw [if_pos c3] at h; cases h
  rw [if_neg c3] at h
  by_cases c4 : Classify.isAdd2 arg = true
  · rw [if_pos c4] at h
    cases hd : Classify.getDecrement n arg with
    | none => rw [hd] at h; cases h
    | some d =>
      rw [hd] at h
      cases hc : Classify.computeOrder ms d l.st.order with
      | error f => simp only [hc] at h; cases h
      | ok v =>
        simp only [hc] at h
        split at h <;> cases h
  rw [if_neg c4] at h
  by_cases c5 : Classify.isMul2 arg = true
  · rw [if_pos c5] at h
    cases hd : Classify.getDivisor n arg with
    | none => rw [hd] at h; cases h
    | some d =>
      rw [hd] at h
      simp only at h
      split at h <;> cases h
  · rw [if_neg c5] at h; cases h

theorem singleX_ne {n : String} {ms k : ℕ} {arg : Expr} {st : Classify.St} : Classify.singleX n ms k arg st ≠ .weighted := by
  unfold Classify.singleX
  intro h
  by_cases c1 : arg = .sym n
  · rw [if_pos c1] at h; cases h
  rw [if_neg c1] at h
  by_cases c2 : (!has (.sym n) arg) = true
  · rw [if_pos c2] at h; cases h
  rw [if_neg c2] at h
  by_cases c3 : hasParameters n arg = true
  · rw [if_pos c3] at h; cases h
  rw [if_neg c3] at h
  by_cases c4 : Classify.isAdd2 arg = true
  · rw [if_pos c4] at h
    cases hd : Classify.getDecrement n arg with
    | none => rw [hd] at h; cases h
    | some d =>
      rw [hd] at h
      cases hc : Classify.computeOrder ms d st.order with
      | error f => simp only [hc] at h; cases h
      | ok v =>
        simp only [hc] at h
        split at h <;> cases h
  rw [if_neg c4] at h
  by_cases c5 : Classify.isMul2 arg = true
  · rw [if_pos c5] at h
    cases hd : Classify.getDivisor n arg with
    | none => rw [hd] at h; cases h
    | some d =>
      rw [hd] at h
      simp only at h
      split at h <;> cases h
  · rw [if_neg c5] at h; cases h

theorem factors_weighted {n : String} {ms k : ℕ} {fs : List Expr} {l : Classify.Loop}
    (h : fs.foldr (factorStep n ms k) (.ok l) = .weighted) : ∃ f ∈ fs, isWeightedSum n f = true := by
  induction fs with
  | nil => simp at h
  | cons a fs ih =>
    rw [List.foldr_cons] at h
    generalize hr : fs.foldr (factorStep n ms k) (.ok l) = r at h
    cases r with
    | weighted =>
      obtain ⟨f, hf, h'⟩ := ih hr
      exact ⟨f, List.mem_cons_of_mem _ hf, h'⟩
    | fail f => simp [factorStep] at h
    | ok l' =>
      by_cases hw : isWeightedSum n a = true
      · exact ⟨a, List.mem_cons_self, hw⟩
      · exfalso
        simp only [factorStep] at h
        split at h
        · exact factorX_ne h
        · rw [if_neg hw] at h
          cases h

theorem summand_weighted {n : String} {ms k : ℕ} {a : Expr} {st : Classify.St} (h : summand n ms k a st = .weighted) : (sumIn n a).isSome := by
  have key : (∃ fs, a = .mul fs ∧ product n ms k fs st = .weighted) ∨ ((∀ fs, a ≠ .mul fs) ∧ single n ms k a st = .weighted) := by
    unfold summand at h
    generalize Classify.findNonLinear n a = kd at h
    cases kd <;> simp only at h
    all_goals try cases h
    cases a <;> simp_all
  clear h
  rcases key with ⟨fs, rfl, h⟩ | ⟨hm, h⟩
  · unfold product at h
    generalize hr : fs.foldr (factorStep n ms k) (.ok ⟨.num 1, false, false, 0, 0, st⟩) = r at h
    cases r with
    | ok l => cases h
    | fail f => cases h
    | weighted =>
      obtain ⟨f, hf, hw⟩ := factors_weighted hr
      simp only [sumIn, Option.isSome_map, List.find?_isSome, List.mem_reverse]
      exact ⟨f, hf, hw⟩
  · have key2 : (∃ arg, Classify.singleX n ms k arg st = .weighted) ∨ isWeightedSum n a = true := by
      by_cases hw : isWeightedSum n a = true
      · exact Or.inr hw
      · left
        unfold single at h
        split at h
        · exact ⟨_, h⟩
        · rw [if_neg hw] at h; cases h
    rcases key2 with ⟨arg, h'⟩ | hw
    · exact absurd h' singleX_ne
    · cases a <;> simp_all [sumIn]

theorem loop_weighted {n : String} {ms : ℕ} : ∀ {as : List Expr} {k : ℕ} {st : Classify.St}, loopFrom n ms k as st = .weighted →
    (as.findSome? (sumIn n)).isSome
  | [], k, st, h => by simp [loopFrom] at h
  | a :: as, k, st, h => by
    rw [List.findSome?_cons]
    cases hs : sumIn n a with
    | some t => simp
    | none =>
      rw [loopFrom] at h
      split at h
      · exact loop_weighted h
      · rename_i h'
        have := summand_weighted h
        rw [hs] at this
        simp at this

/-- When the classification says that the right-hand side is a weighted average, there is a sum from which the weight is read. -/
theorem C153_sum_found {n : String} {ms : ℕ} {rhs : Expr} (h : classify n ms rhs = .weighted) : (sumOf n rhs).isSome := loop_weighted h

/-! ### Collecting the sum -/

/-- The sum occurs at most to the first power in each addend. -/
def FirstPower (t e : Expr) : Prop := ∀ a ∈ addends e, (∀ k, a ≠ .pow t k) ∧ OneXPerProduct t a ∧ ∀ fs, a = .mul fs → ∀ f ∈ fs, ∀ k, f ≠ .pow t k

theorem collectFactor_lin (J : Interp K) (x : Expr) (ρ : String → K) (l : List Expr) (hp : ∀ f ∈ l, ∀ k, f ≠ .pow x k)
    (hl : (l.filter (fun f => decide (IsXFactor x f))).length ≤ 1) :
    let r := l.foldr (collectFactor x) (false, .num 1)
    (r.1 = true ↔ (l.filter (fun f => decide (IsXFactor x f))).length = 1) ∧
    (r.1 = true → eval J ρ r.2 * eval J ρ x = (l.map (eval J ρ)).prod) ∧
    (r.1 = false → eval J ρ r.2 = (l.map (eval J ρ)).prod) := by
  induction l with
  | nil => simp [eval]
  | cons a l ih =>
    simp only [List.foldr_cons, List.map_cons, List.prod_cons]
    have hp' : ∀ f ∈ l, ∀ k, f ≠ .pow x k := fun f hf => hp f (List.mem_cons_of_mem _ hf)
    by_cases hx : IsXFactor x a
    · have h0 : (l.filter (fun f => decide (IsXFactor x f))).length = 0 := by
        simp [hx] at hl; simpa using hl
      obtain ⟨i1, i2, i3⟩ := ih hp' (by omega)
      set r := l.foldr (collectFactor x) (false, Expr.num 1) with hr
      have hr1 : r.1 = false := by
        by_contra hc
        have := i1.mp (by simpa using hc)
        omega
      have i3' := i3 hr1
      have e1 : (List.filter (fun f => decide (IsXFactor x f)) (a :: l)).length = 1 := by
        simp [hx]; simpa using h0
      rw [e1]
      unfold collectFactor
      have ha : a = x := hx.resolve_right fun ⟨k, hk⟩ => hp a List.mem_cons_self k hk
      simp only [ha, if_true]
      refine ⟨by simp, fun _ => by rw [i3']; ring, by simp⟩
    · have e1 : (List.filter (fun f => decide (IsXFactor x f)) (a :: l))
          = List.filter (fun f => decide (IsXFactor x f)) l := by
        simp [hx]
      rw [e1] at hl ⊢
      obtain ⟨i1, i2, i3⟩ := ih hp' hl
      set r := l.foldr (collectFactor x) (false, Expr.num 1) with hr
      have e2 : collectFactor x a r = (r.1, mulE r.2 a) := by
        unfold collectFactor
        have : a ≠ x := fun h => hx (Or.inl h)
        rw [if_neg this]
        cases a with
        | pow b k =>
          have : b ≠ x := fun h => hx (Or.inr ⟨k, by rw [h]⟩)
          simp [this]
        | _ => rfl
      rw [e2]
      refine ⟨i1, fun h => ?_, fun h => ?_⟩
      · rw [eval_mulE, ← i2 h]; ring
      · rw [eval_mulE, i3 h]; ring

theorem collectAddend_lin (J : Interp K) (x : Expr) (ρ : String → K) (a : Expr) (h1 : ∀ k, a ≠ .pow x k) (h2 : OneXPerProduct x a)
    (h3 : ∀ fs, a = .mul fs → ∀ f ∈ fs, ∀ k, f ≠ .pow x k) (st : Expr × Expr) :
    eval J ρ (collectAddend x a st).1 * eval J ρ x + eval J ρ (collectAddend x a st).2
      = eval J ρ st.1 * eval J ρ x + eval J ρ st.2 + eval J ρ a := by
  cases a with
  | mul l =>
    obtain ⟨s1, s2, s3⟩ := collectFactor_lin J x ρ l (h3 l rfl) h2
    simp only [collectAddend]
    split
    · rename_i h
      simp only [eval_addE]
      have := s2 h
      simp only [eval]
      rw [← this]; ring
    · simp only [eval_addE]; ring
  | pow b k =>
    simp only [collectAddend]
    split
    · rename_i h
      simp only [eval_addE, h, eval]; push_cast; ring
    · split
      · rename_i h
        exact absurd (by rw [h]) (h1 k)
      · simp only [eval_addE]; ring
  | _ =>
    simp only [collectAddend]
    split
    · rename_i h; rw [eval_addE, h]; simp only [eval]; push_cast; ring
    · simp only [eval_addE]; ring

/-- Collecting a sum that occurs only to the first power keeps the value. -/
theorem collect_val (J : Interp K) {t e : Expr} (h : FirstPower t e) (ρ : String → K) : eval J ρ (collectTerm t e).1 = eval J ρ e := by
  cases e with
  | add l =>
    simp only [collectTerm, eval_addE, eval_mulE, eval]
    have : ∀ m : List Expr, (∀ a ∈ m, a ∈ l) → eval J ρ (m.foldr (collectAddend t) (.num 0, .num 0)).1 * eval J ρ t
        + eval J ρ (m.foldr (collectAddend t) (.num 0, .num 0)).2 = (m.map (eval J ρ)).sum := by
      intro m hm
      induction m with
      | nil => simp [eval]
      | cons a m ih =>
        simp only [List.foldr_cons, List.map_cons, List.sum_cons]
        obtain ⟨q1, q2, q3⟩ := h a (hm a (by simp))
        rw [collectAddend_lin J t ρ a q1 q2 q3, ih fun b hb => hm b (by simp [hb])]
        ring
    rw [← this l fun a h => h]; ring
  | _ => rfl

/-! ### The recorded data -/

/-- What is assumed of the operations that have no model here, on the right-hand side at hand: they keep the values. -/
structure OpsKeep (I : Interp K) (O : Ops) (n : String) (ρ : String → K) (rhs t : Expr) (os : List Expr) : Prop where
  simp : ∀ X (N : ℕ), eval (withX I X) (update ρ n (N : K)) (O.simp rhs) = eval (withX I X) (update ρ n (N : K)) rhs
  cancel : ∀ X (N : ℕ), eval (withX I X) (update ρ n (N : K)) (inhomOf O rhs t os) =
    eval (withX I X) (update ρ n (N : K)) (subE (collectTerm t (O.simp rhs)).1 (mulE (weightOf O rhs t os) t))

/-- What the classification as a weighted average goes through. -/
theorem classifyWA_cases {O : Ops} {n y : String} {ms : ℕ} {rhs : Expr} {r : Extracted} {wa : WA} (h : classifyWA O n y ms rhs = some (r, wa)) :
    classify n ms rhs = .weighted ∧ ∃ t os, sumOf n rhs = some (t, os) ∧ extract O n y rhs t os = some r ∧ store O n r = some wa := by
  unfold classifyWA at h
  split at h
  · rename_i hc
    obtain ⟨⟨t, os⟩, h1, h2⟩ := Option.bind_eq_some_iff.mp h
    obtain ⟨r', h3, h4⟩ := Option.bind_eq_some_iff.mp h2
    obtain ⟨wa', h5, h6⟩ := Option.map_eq_some_iff.mp h4
    cases h6
    exact ⟨hc, t, os, h1, h3, h5⟩
  · cases h

/-- What a successful extraction records. -/
theorem extract_cases {O : Ops} {n y : String} {rhs t : Expr} {os : List Expr} {r : Extracted} (h : extract O n y rhs t os = some r) :
    ∃ i up body, t = .binder .sum i (.num (r.lower : ℚ)) up body ∧ r.weight = weightOf O rhs t os ∧ r.inhom = inhomOf O rhs t os ∧
      r.upperIsN = decide (up = .sym n) ∧ accepted O n y r.weight r.inhom i up body = true := by
  unfold extract at h
  split at h
  · rename_i i lo up body
    by_cases hc : lo.den = 1 ∧ 0 ≤ lo ∧
        accepted O n y (weightOf O rhs (.binder .sum i (.num lo) up body) os) (inhomOf O rhs (.binder .sum i (.num lo) up body) os) i up body = true
    · rw [if_pos hc, Option.some.injEq] at h
      subst h
      have hlo : ((lo.num.toNat : ℕ) : ℚ) = lo := by
        have h1 : ((lo.num.toNat : ℕ) : ℤ) = lo.num := Int.toNat_of_nonneg (Rat.num_nonneg.mpr hc.2.1)
        have h2 : ((lo.num : ℤ) : ℚ) = lo := Rat.coe_int_num_of_den_eq_one hc.1
        calc ((lo.num.toNat : ℕ) : ℚ) = (((lo.num.toNat : ℕ) : ℤ) : ℚ) := by push_cast; rfl
          _ = lo := by rw [h1, h2]
      refine ⟨i, up, body, by simp only [hlo], ?_, ?_, rfl, ?_⟩
      · simp only
      · simp only
      · exact hc.2.2
    · rw [if_neg hc] at h
      cases h
  · cases h

/-- **C153** (what the code guarantees).  A right-hand side is classified as a weighted average, and the summand of the sum found is `x(k)`, `k` the
index.  Then the recorded weight, inhomogeneous term and limits describe the right-hand side that the user wrote: it has the value
`w(N) (x(n_0) + ... + x(u(N))) + g(N)` for every sequence `x` and every `N` greater than the lower limit.
Missing from the full property: other summands, see `C153_summand_refuted`; and nothing is said of occurrences of the unknown in the recorded
inhomogeneous term, see `C153_other_sum_refuted`. -/
theorem C153_describes_partial (hI : SumMeaning I) {O : Ops} {n y : String} {ms : ℕ} {rhs : Expr} {r : Extracted} {wa : WA} {ρ : String → K}
    (h : classifyWA O n y ms rhs = some (r, wa)) {k : String} {lo up : Expr} {os : List Expr}
    (hs : sumOf n rhs = some (.binder .sum (.sym k) lo up (.fn .x [.sym k]), os))
    (hO : OpsKeep I O n ρ rhs (.binder .sum (.sym k) lo up (.fn .x [.sym k])) os)
    (hp : FirstPower (.binder .sum (.sym k) lo up (.fn .x [.sym k])) (O.simp rhs)) (X : K → K) {N : ℕ} (hN : r.lower < N) :
    eval (withX I X) (update ρ n (N : K)) rhs = eval (withX I X) (update ρ n (N : K)) r.weight *
      (∑ j ∈ Icc r.lower (if r.upperIsN then N else N - 1), X (j : K)) + eval (withX I X) (update ρ n (N : K)) r.inhom := by
  obtain ⟨-, t, os', h1, h2, -⟩ := classifyWA_cases h
  rw [hs, Option.some.injEq, Prod.mk.injEq] at h1
  obtain ⟨rfl, rfl⟩ := h1
  obtain ⟨i, up', body, ht, hw, hg, hu, ha⟩ := extract_cases h2
  injection ht with e0 e1 e2 e3 e4
  subst e1 e2 e3 e4
  have hup : up = .sym n ∨ up = shiftN n (-1) := by
    simp only [accepted, Bool.and_eq_true, Bool.or_eq_true, decide_eq_true_eq] at ha
    exact ha.1.1.2
  have hsum : eval (withX I X) (update ρ n (N : K)) (.binder .sum (.sym k) (.num (r.lower : ℚ)) up (.fn .x [.sym k])) =
      ∑ j ∈ Icc r.lower (if r.upperIsN then N else N - 1), X (j : K) := by
    have hbody : (fun v => eval (withX I X) (bindIdx (update ρ n (N : K)) (.sym k) v) (.fn .x [.sym k])) = X := by
      funext v
      simp [eval, bindIdx, withX]
    rw [eval, hbody]
    have hupv : eval (withX I X) (update ρ n (N : K)) up = (((if r.upperIsN then N else N - 1) : ℕ) : K) := by
      rw [hu]
      rcases hup with rfl | rfl
      · simp [eval]
      · have hne : shiftN n (-1) ≠ .sym n := by simp [shiftN, addE]
        simp only [hne, decide_false, Bool.false_eq_true, if_false]
        rw [WeightedAvg.eval_shiftN, update_self, Nat.cast_sub (by omega)]
        push_cast
        ring
    rw [hupv]
    have hlo : eval (withX I X) (update ρ n (N : K)) (.num (r.lower : ℚ)) = ((r.lower : ℕ) : K) := by simp [eval]
    rw [hlo]
    exact hI X _ _ (by split <;> omega)
  rw [hg, hO.cancel X N, eval_subE, eval_mulE, hsum, collect_val _ hp, hO.simp X N, hw]
  ring

/-- **C153** in terms of sequences: the sequences that satisfy the recurrence written by the user are those that satisfy the recorded weighted
average. -/
theorem C153_solutions_partial (hI : SumMeaning I) {O : Ops} {n y : String} {ms : ℕ} {rhs : Expr} {r : Extracted} {wa : WA} {ρ : String → K}
    (h : classifyWA O n y ms rhs = some (r, wa)) {k : String} {lo up : Expr} {os : List Expr}
    (hs : sumOf n rhs = some (.binder .sum (.sym k) lo up (.fn .x [.sym k]), os))
    (hO : OpsKeep I O n ρ rhs (.binder .sum (.sym k) lo up (.fn .x [.sym k])) os)
    (hp : FirstPower (.binder .sum (.sym k) lo up (.fn .x [.sym k])) (O.simp rhs)) (X : K → K) :
    SolvesAt I n rhs ρ X (r.lower + 1) ↔ SolvesWA I n ρ r.weight r.inhom r.lower r.upperIsN X := by
  refine forall_congr' fun N => ?_
  rw [Nat.succ_le_iff]
  refine forall_congr' fun hN => ?_
  rw [C153_describes_partial hI h hs hO hp X hN]
  exact Iff.rfl

/-- The recorded weight contains neither the unknown nor a symbol other than `n`. -/
theorem C153_weight_known {O : Ops} {n y : String} {ms : ℕ} {rhs : Expr} {r : Extracted} {wa : WA}
    (h : classifyWA O n y ms rhs = some (r, wa)) : hasX r.weight = false ∧ hasParameters n r.weight = false ∧ hasXOf (.sym n) r.inhom = false := by
  obtain ⟨-, t, os, -, h2, -⟩ := classifyWA_cases h
  obtain ⟨i, up, body, -, -, -, -, ha⟩ := extract_cases h2
  simp only [accepted, Bool.and_eq_true, Bool.not_eq_true'] at ha
  obtain ⟨⟨⟨⟨⟨-, a2⟩, a3⟩, -⟩, -⟩, -⟩ := ha
  exact ⟨CapstoneVar.noX_of_noParameters a3, a3, a2⟩

/-! ### What is left after the sum is taken out -/

/-- The addend has the sum `t` as a factor. -/
def Carries (t a : Expr) : Prop := a = t ∨ ∃ fs, a = .mul fs ∧ t ∈ fs

theorem eval_others (J : Interp K) (ρ : String → K) (os : List Expr) :
    eval J ρ (os.foldr (fun a acc => mulE acc a) (.num 1)) = (os.map (eval J ρ)).prod := by
  induction os with
  | nil => simp [eval]
  | cons a os ih => rw [List.foldr_cons, eval_mulE, ih, List.map_cons, List.prod_cons]; ring

theorem collectFactor_found (x : Expr) (l : List Expr) (hp : ∀ f ∈ l, ∀ k, f ≠ .pow x k) :
    (l.foldr (collectFactor x) (false, .num 1)).1 = true ↔ x ∈ l := by
  induction l with
  | nil => simp
  | cons a l ih =>
    have ih' := ih fun f hf => hp f (List.mem_cons_of_mem _ hf)
    rw [List.foldr_cons, List.mem_cons]
    generalize l.foldr (collectFactor x) (false, .num 1) = r at ih' ⊢
    unfold collectFactor
    by_cases ha : a = x
    · simp [ha]
    · rw [if_neg ha]
      have ha' : ¬ x = a := fun h => ha h.symm
      cases a with
      | pow b k =>
        have : b ≠ x := fun h => hp _ List.mem_cons_self k (by rw [h])
        simp [this, ha', ← ih']
      | _ => simp [ha', ← ih']

/-- What `collect_term` leaves outside the coefficient: the addends without the sum. -/
theorem collect_rest (J : Interp K) {t : Expr} (ρ : String → K) : ∀ l : List Expr,
    (∀ a ∈ l, (∀ k, a ≠ .pow t k) ∧ ∀ fs, a = .mul fs → ∀ f ∈ fs, ∀ k, f ≠ .pow t k) → (∀ fs, t ≠ .mul fs) →
    ∀ q : List Expr, (∃ p : Expr → Bool, (∀ a ∈ l, p a = true ↔ ¬ Carries t a) ∧ q = l.filter p) →
    eval J ρ (l.foldr (collectAddend t) (.num 0, .num 0)).2 = (q.map (eval J ρ)).sum
  | [], _, _, q, ⟨p, _, hq⟩ => by subst hq; simp [eval]
  | a :: l, h, ht, q, ⟨p, hp, hq⟩ => by
    have ih := collect_rest J ρ l (fun b hb => h b (List.mem_cons_of_mem _ hb)) ht (l.filter p) ⟨p, fun b hb => hp b (List.mem_cons_of_mem _ hb), rfl⟩
    obtain ⟨h1, h2⟩ := h a List.mem_cons_self
    rw [List.foldr_cons]
    generalize l.foldr (collectAddend t) (.num 0, .num 0) = st at ih ⊢
    by_cases hc : Carries t a
    · have hpa : ¬ p a = true := fun h' => (hp a List.mem_cons_self).mp h' hc
      rw [hq, List.filter_cons_of_neg hpa, ← ih]
      rcases hc with rfl | ⟨fs, rfl, hm⟩
      · cases a <;> simp [collectAddend] <;> try exact absurd rfl (ht _)
      · have := (collectFactor_found t fs (h2 fs rfl)).mpr hm
        simp only [collectAddend, this, if_true]
    · have hpa : p a = true := (hp a List.mem_cons_self).mpr hc
      rw [hq, List.filter_cons_of_pos hpa, List.map_cons, List.sum_cons, ← ih]
      have hne : a ≠ t := fun h' => hc (Or.inl h')
      cases a with
      | mul fs =>
        have : ¬ (fs.foldr (collectFactor t) (false, .num 1)).1 = true := fun h' =>
          hc (Or.inr ⟨fs, rfl, (collectFactor_found t fs (h2 fs rfl)).mp h'⟩)
        simp only [collectAddend, this, if_false, Bool.false_eq_true, eval_addE]
        ring
      | pow b k =>
        have : b ≠ t := fun h' => h1 k (by rw [h'])
        simp only [collectAddend, if_neg hne, if_neg this, eval_addE]
        ring
      | _ =>
        simp only [collectAddend, if_neg hne, eval_addE]
        ring

/-- **C153**, a product: if the right-hand side is a product of a sum and of other factors, the recorded weight is the product of the other factors
and the recorded inhomogeneous term is `0`. -/
theorem C153_product {O : Ops} {n : String} {rhs t : Expr} {fs os : List Expr} {ρ : String → K} (hs : O.simp rhs = .mul fs)
    (hp : fs.Perm (t :: os)) (X : K → K) (N : ℕ) (hO : OpsKeep I O n ρ rhs t os) :
    eval (withX I X) (update ρ n (N : K)) (weightOf O rhs t os) = (os.map (eval (withX I X) (update ρ n (N : K)))).prod ∧
      eval (withX I X) (update ρ n (N : K)) (inhomOf O rhs t os) = 0 := by
  have e1 : eval (withX I X) (update ρ n (N : K)) (weightOf O rhs t os) = (os.map (eval (withX I X) (update ρ n (N : K)))).prod := by
    unfold weightOf
    rw [hs, if_pos (show (collectTerm t (.mul fs)).2 = .num 1 from rfl), eval_others]
  refine ⟨e1, ?_⟩
  rw [hO.cancel X N, eval_subE, eval_mulE, e1, hs]
  show eval _ _ (.mul fs) - _ = 0
  rw [eval, (hp.map _).prod_eq, List.map_cons, List.prod_cons]
  ring

/-- **C153**, a sum: if the right-hand side is a sum of addends, each of which has the sum `t` at most once as a factor, and the coefficient of `t`
is not `1` or `t` stands alone, the recorded inhomogeneous term is the sum of the addends without `t`: nothing of `t` is left in it. -/
theorem C153_sum {O : Ops} {n : String} {rhs i lo up body : Expr} {l q os : List Expr} {ρ : String → K} (hs : O.simp rhs = .add l)
    (hp : FirstPower (.binder .sum i lo up body) (.add l))
    (hq : ∃ p : Expr → Bool, (∀ a ∈ l, p a = true ↔ ¬ Carries (.binder .sum i lo up body) a) ∧ q = l.filter p)
    (hos : os = [] ∨ (collectTerm (.binder .sum i lo up body) (.add l)).2 ≠ .num 1) (X : K → K) (N : ℕ)
    (hO : OpsKeep I O n ρ rhs (.binder .sum i lo up body) os) :
    eval (withX I X) (update ρ n (N : K)) (inhomOf O rhs (.binder .sum i lo up body) os) =
      (q.map (eval (withX I X) (update ρ n (N : K)))).sum := by
  have e1 : eval (withX I X) (update ρ n (N : K)) (weightOf O rhs (.binder .sum i lo up body) os) =
      eval (withX I X) (update ρ n (N : K)) (collectTerm (.binder .sum i lo up body) (.add l)).2 := by
    unfold weightOf
    rw [hs]
    rcases hos with rfl | h
    · split
      · rename_i h; rw [h]; rfl
      · rfl
    · rw [if_neg h]
  rw [hO.cancel X N, eval_subE, eval_mulE, e1, hs]
  have := collect_rest (withX I X) (update ρ n (N : K)) l
    (fun a ha => ⟨(hp a ha).1, (hp a ha).2.2⟩) (t := .binder .sum i lo up body) (fun _ h => by cases h) q hq
  simp only [collectTerm, eval_addE, eval_mulE, this]
  ring

/-- **C153**, the summand: in what is recorded the summand is a polynomial of degree at most one in the unknown, the weight has no parameters, and
the upper limit is `n` or `n - 1`. -/
theorem C153_affine {O : Ops} {n y : String} {ms : ℕ} {rhs : Expr} {r : Extracted} {wa : WA}
    (h : classifyWA O n y ms rhs = some (r, wa)) : ∃ i up body os, sumOf n rhs = some (.binder .sum i (.num (r.lower : ℚ)) up body, os) ∧
      isPolynomial y (O.expand (substitute (.fn .x [i]) (.sym y) body)) = true ∧
      O.degree y (O.expand (substitute (.fn .x [i]) (.sym y) body)) ≤ 1 ∧
      (up = .sym n ∧ r.upperIsN = true ∨ up = addE (.sym n) (.num (-1)) ∧ r.upperIsN = false) := by
  obtain ⟨-, t, os, h1, h2, -⟩ := classifyWA_cases h
  obtain ⟨i, up, body, rfl, -, -, hu, ha⟩ := extract_cases h2
  simp only [accepted, Bool.and_eq_true, Bool.or_eq_true, decide_eq_true_eq] at ha
  obtain ⟨⟨⟨-, a4⟩, a5⟩, a6⟩ := ha
  refine ⟨i, up, body, os, h1, a5, a6, ?_⟩
  rcases a4 with rfl | rfl
  · exact Or.inl ⟨rfl, by simp [hu]⟩
  · refine Or.inr ⟨rfl, ?_⟩
    rw [hu]
    simp [shiftN, addE]

/-- Sums of real numbers have their meaning. -/
theorem sumMeaning_real (ξ : ℝ → ℝ) : SumMeaning (realInterp ξ) := by
  intro f a b hab
  show ∑ i ∈ Icc ⌈((a : ℕ) : ℝ)⌉ ⌊((b : ℕ) : ℝ)⌋, f (i : ℝ) = _
  rw [Int.ceil_natCast, Int.floor_natCast]
  symm
  refine Finset.sum_bij (fun (k : ℕ) _ => (k : ℤ)) ?_ ?_ ?_ ?_
  · intro k hk
    simp only [Finset.mem_Icc] at hk ⊢
    omega
  · intro a _ b _ h
    exact_mod_cast h
  · intro z hz
    simp only [Finset.mem_Icc] at hz
    refine ⟨z.toNat, ?_, by omega⟩
    simp only [Finset.mem_Icc]
    omega
  · intro k hk
    simp

end Purrs.WeightedExtract
