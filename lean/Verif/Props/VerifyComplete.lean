import Verif.Props.VerifyRefuted
import Verif.Props.VerifyObj
import Verif.Props.OnIC

/-!
# C144: the verification confirms right solutions

The converse of C40: if the simplifications recognise constants and zeros, a right solution is never inconclusive.
-/

set_option linter.unusedSectionVars false

namespace Purrs.Verify

open Purrs Purrs.OrderRed Purrs.WeightedAvg
open Function (update update_of_ne update_self update_comm)

variable {K : Type} [Field K] [CharZero K] (I : Interp K)

/-- The simplifications recognise rational constants: an expression without the unknown that has the value `q` at every index
where the recurrence holds becomes literally `q`; `expand()` after the rewriting recognises zero. -/
structure OracleComplete (R : Rec) (O : Oracle) (ρ : String → K) : Prop where
  simp : ∀ (e : Expr) (q : ℚ), hasX e = false → idxNe R.n e = true →
    (∀ m : ℕ, R.first + R.order ≤ m → valAt I R.n ρ e m = q) → O.simp e = .num q
  rw : ∀ q : ℚ, O.rw (.num q) = .num q
  expand : ∀ e : Expr, hasX e = false → idxNe R.n e = true →
    (∀ m : ℕ, R.first + R.order ≤ m → valAt I R.n ρ e m = 0) → O.expand e = .num 0

section
variable {I} {R : Rec} {O : Oracle} {ρ : String → K} {a : ℕ → ℕ → K}

theorem at_complete (hC : OracleComplete I R O ρ) {e : Expr} (hx : hasX e = false) (hi : idxNe R.n e = true) {k : ℕ} {q : ℚ}
    (h : valAt I R.n ρ e k = q) : at' O R.n e k = .num q := by
  have s1 : hasX (substitute (.sym R.n) (.num k) e) = false := hasX_substN (by simp [hasX]) hx
  have s2 : idxNe R.n (substitute (.sym R.n) (.num k) e) = true := idxNe_substN (by simp [idxNe]) hi
  rw [at', hC.simp _ q s1 s2 fun m _ => by rw [subst_num_val hi, h], hC.rw]
  exact hC.simp _ q (by simp [hasX]) (by simp [idxNe]) fun m _ => by simp [valAt, eval]

theorem newDiff_complete (hO : OracleOk I R O ρ) (hC : OracleComplete I R O ρ) (hR : RecOk I R ρ a) {e : Expr}
    (hx : hasX e = false) (hi : idxNe R.n e = true) (b : Bool)
    (h : ∀ m : ℕ, R.first + R.order ≤ m → valAt I R.n ρ e m
      = eval (withX I (valAt I R.n ρ e)) (update ρ R.n m) (if b then R.rhs else subE R.rhs R.inhom)) :
    newDiff R O b e = .num 0 := by
  have hO' : OracleOk I R { O with expand := id } ρ :=
    ⟨hO.simp, hO.simpSum, hO.rw, ⟨fun _ _ _ _ _ _ => rfl, fun _ h _ => h, fun _ _ h => h⟩⟩
  obtain ⟨⟨h1, h2⟩, h3⟩ := newDiff_val hO' hR hx hi b
  have e1 : newDiff R O b e = O.expand (newDiff R { O with expand := id } b e) := rfl
  rw [e1]
  refine hC.expand _ h1 h2 fun m hm => ?_
  rw [h3 m hm, h m hm, sub_self]

theorem residual_complete (hO : OracleOk I R O ρ) (hC : OracleComplete I R O ρ) {e rhs : Expr} (hx : hasX e = false)
    (hi : idxNe R.n e = true) (hr : xOut R.n (List.range' 1 R.order) rhs = true)
    (h : ∀ m : ℕ, R.first + R.order ≤ m → valAt I R.n ρ e m = eval (withX I (valAt I R.n ρ e)) (update ρ R.n m) rhs) :
    residual R O rhs e = .num 0 := by
  obtain ⟨⟨l1, l2⟩, -⟩ := substLoop_spec I R (shiftSimp R O e) (fun d => (shift_val hO hx hi d).1)
    (fun d => (shift_val hO hx hi d).2.1) _ _ hr
  have s1 := hasX_subE hx l1
  have s2 := idxNe_subE hi l2
  have r1 := hO.rw.noX _ s1 s2
  have r2 := hO.rw.idx _ s1 s2
  refine hC.simp _ 0 r1 r2 fun m hm => ?_
  rw [← keeps_all hO.simp r1 r2 hm]
  have := (residual_val hO hx hi hr).2 m hm
  rw [h m hm, sub_self] at this
  rw [Rat.cast_zero]
  exact this

theorem traditional_complete (hO : OracleOk I R O ρ) (hC : OracleComplete I R O ρ) (hR : RecOk I R ρ a) {e : Expr}
    (hx : hasX e = false) (hi : idxNe R.n e = true) (h : HomSat I R ρ a e) : traditional3 R O e = true := by
  rw [traditional3, residual_complete hO hC hx hi (homPart hR).1]
  · simp
  · intro m hm
    rw [h m hm, (homPart hR).2 _ m hm]

theorem newMethod_hom (hO : OracleOk I R O ρ) (hC : OracleComplete I R O ρ) (hR : RecOk I R ρ a) {e : Expr}
    (hx : hasX e = false) (hi : idxNe R.n e = true) (h : HomSat I R ρ a e) : newMethod R O e false = some true := by
  have hz := newDiff_complete hO hC hR hx hi false fun m hm => by
    rw [h m hm]; exact ((homPart hR).2 _ m hm).symm
  unfold newMethod
  rw [if_neg (by simp)]
  exact if_pos hz

theorem step3_complete (hO : OracleOk I R O ρ) (hC : OracleComplete I R O ρ) (hR : RecOk I R ρ a) {v : List Expr}
    {withIC : Expr} (hc : Clean R.n v) (h : ∀ j < R.order, HomSat I R ρ a (v.getD j (.num 0))) :
    step3 R O v withIC = some true := by
  have hj : ∀ i ∈ List.range (R.order / R.gcd), i < R.order := by
    intro i hi
    rw [hR.gcd, Nat.div_one] at hi
    simpa using hi
  have trad : (List.range (R.order / R.gcd)).all (fun i => traditional3 R O (v.getD i (.num 0))) = true :=
    List.all_eq_true.mpr fun i hi => traditional_complete hO hC hR (clean_getD hc i).1 (clean_getD hc i).2 (h i (hj i hi))
  have fold : ∀ idx : List ℕ, (∀ i ∈ idx, i < R.order) →
      idx.foldl (fun acc i => acc.bind fun b => if b then newMethod R O (v.getD i (.num 0)) false else some false) (some true)
        = some true := by
    intro idx
    induction idx with
    | nil => intro _; rfl
    | cons i idx ih =>
      intro hi
      rw [List.foldl_cons, Option.bind_some, if_pos rfl,
        newMethod_hom hO hC hR (clean_getD hc i).1 (clean_getD hc i).2 (h i (hi i (by simp)))]
      exact ih fun j hj => hi j (by simp [hj])
  unfold step3
  simp only [hR.linear, if_true, trad, fold _ hj]
  split <;> simp

theorem step4_complete (hO : OracleOk I R O ρ) (hC : OracleComplete I R O ρ) (hR : RecOk I R ρ a) {w : Expr}
    (hw : hasX w = false ∧ idxNe R.n w = true) (h : InhomSat I R ρ a w) (p : Bool) : step4 R O w p = some (yes p) := by
  unfold step4
  rw [if_pos]
  refine residual_complete hO hC hw.1 hw.2 hR.out fun m hm => ?_
  rw [h m hm, hR.lin _ m hm, eval_valAt I hR.inX]

theorem steps_complete (hO : OracleOk I R O ρ) (hC : OracleComplete I R O ρ) (hR : RecOk I R ρ a) {v : List Expr}
    {withIC w : Expr} (hc : Clean R.n v) (hv : ∀ j < R.order, HomSat I R ρ a (v.getD j (.num 0)))
    (hw : hasX w = false ∧ idxNe R.n w = true) (h : InhomSat I R ρ a w) (h0 : R.ics = [] → R.inhom = .num 0 → w = .num 0)
    (p : Bool) : steps34 R O v withIC w p = some (yes p) := by
  unfold steps34
  rw [step3_complete hO hC hR hc hv, Option.bind_some]
  simp only [Bool.not_true, Bool.false_eq_true, if_false]
  by_cases h1 : R.ics = [] ∧ R.inhom = .num 0
  · rw [if_pos h1, if_pos (h0 h1.1 h1.2)]
  · rw [if_neg h1]
    split
    · have hn : newMethod R O w true = some true ∨ newMethod R O w true = some false := by
        unfold newMethod
        by_cases h2 : true = true ∧ R.noPoly = true
        · rw [if_pos h2]; exact .inr rfl
        · rw [if_neg h2]
          left
          refine if_pos (newDiff_complete hO hC hR hw.1 hw.2 true fun m hm => ?_)
          rw [if_pos rfl, h m hm, hR.lin _ m hm, eval_valAt I hR.inX]
      rcases hn with hn | hn <;> rw [hn]
      · rfl
      · exact step4_complete hO hC hR hw h p
    · exact step4_complete hO hC hR hw h p

/-! ### What a right solution looks like -/

theorem order_at_most (hR : RecOk I R ρ a) : OnIC.OrderAtMost I R.n R.rhs ρ R.first R.order := by
  intro N hN X Y h
  rw [hR.lin X N hN, hR.lin Y N hN, eval_valAt I hR.inX, eval_valAt I hR.inX]
  congr 1
  refine Finset.sum_congr rfl fun d hd => ?_
  have hd := Finset.mem_Icc.mp hd
  have e1 : (N : K) - d = ((N - d : ℕ) : K) := by rw [Nat.cast_sub (by omega)]
  rw [e1, h (N - d) (by omega) (by omega)]

/-- The vector of the coefficients of a right solution. -/
theorem fill_complete (hR : RecOk I R ρ a) {sol w : Expr} {L : List Expr}
    (hL : ∀ t ∈ L, ∃ i, ICTerm R.n R.first R.order i t) (hw : hasX w = false)
    (hev : ∀ (J : Interp K) (ρ : String → K), eval J ρ sol = (L.map fun a => eval J ρ a).sum + eval J ρ w)
    (h : IsSolution I R.n R.rhs ρ sol R.first R.order) :
    ∃ v, fillVector R.gcd R.first R.order (joined L) = some v ∧ v.length = R.order ∧ Clean R.n v ∧
      ∀ (J : Interp K) (ρ : String → K), (L.map fun a => eval J ρ a).sum
        = wsum (fun i => eval J ρ (xAt (R.first + i))) (eval J ρ) v := by
  have hpos := hR.pos
  have ex := fun w : ℕ → K => OnIC.forward_exists (order_at_most hR) w
  match L with
  | [] =>
    exfalso
    obtain ⟨X, hX, hX0⟩ := ex fun _ => 0
    obtain ⟨Y, hY, hY0⟩ := ex fun _ => 1
    have h1 := h X hX R.first le_rfl
    have h2 := h Y hY R.first le_rfl
    have e1 := hX0 0 hpos
    have e2 := hY0 0 hpos
    rw [Nat.add_zero] at e1 e2
    rw [hev, eval_valAt I hw, e1] at h1
    rw [hev, eval_valAt I hw, e2] at h2
    simp only [List.map_nil, List.sum_nil, zero_add] at h1 h2
    exact zero_ne_one (h1.symm.trans h2)
  | [t] =>
    obtain ⟨i, hi⟩ := hL t (by simp)
    have hio := (icTerm_parts (K := K) hi).1
    obtain ⟨c, h1, h2, h3⟩ := fill_single (K := K) (gcd := R.gcd) hi
    have h0 : R.order = 1 := by
      by_contra hne
      obtain ⟨j, hj, hji⟩ : ∃ j, j < R.order ∧ j ≠ i := by
        by_cases hi0 : i = 0
        · exact ⟨1, by omega, by omega⟩
        · exact ⟨0, by omega, fun h => hi0 h.symm⟩
      obtain ⟨X, hX, hX0⟩ := ex fun _ => 0
      obtain ⟨Y, hY, hY0⟩ := ex fun k => if k = j then 1 else 0
      have g1 := h X hX (R.first + j) (by omega)
      have g2 := h Y hY (R.first + j) (by omega)
      rw [hX0 j hj] at g1
      rw [hY0 j hj, if_pos rfl] at g2
      have hz : ∀ Z : K → K, Z ((R.first + i : ℕ) : K) = 0 → ∀ u : K,
          eval (withX I Z) (update ρ R.n u) sol = valAt I R.n ρ w u := by
        intro Z hZ u
        rw [hev, eval_valAt I hw]
        simp only [List.map_cons, List.map_nil, List.sum_cons, List.sum_nil, add_zero]
        rw [h3, xAt, eval_x]
        have : eval (withX I Z) (update ρ R.n u) (.num ((R.first + i : ℕ) : ℚ)) = ((R.first + i : ℕ) : K) := by simp [eval]
        rw [this, hZ, zero_mul, zero_add]
      rw [hz X (hX0 i hio)] at g1
      rw [hz Y ((hY0 i hio).trans (if_neg (Ne.symm hji)))] at g2
      exact zero_ne_one (g1.symm.trans g2)
    refine ⟨_, h1, by simp, ?_, fun J ρ => ?_⟩
    · intro c' hc'
      rcases List.mem_or_eq_of_mem_set hc' with g | g
      · exact clean_replicate R.n _ c' g
      · rw [g]; exact h2
    · rw [wsum_set_zero (by omega) _ _ _ (by simp [eval])]
      have : i = 0 := by omega
      simp [h3 J ρ, this]
  | t :: t' :: L =>
    obtain ⟨v', h1, h2, h3, h4⟩ := fill_fold (K := K) (gcd := R.gcd) (t :: t' :: L) hL
    exact ⟨v', h1, h2, h3, h4⟩

/-- **C144**, symbolic initial conditions.  Let the simplifications be correct and recognise constants and zeros, let the
recurrence be linear of finite order and not reduced, and let the solution be a sum of terms with at most one initial condition
`x(first), …, x(first + order - 1)` (for a homogeneous recurrence without other terms).  If the solution is right, that is, if
it has the value of every solution of the recurrence, then the verdict is positive. -/
theorem C144_symbolic (hO : OracleOk I R O ρ) (hC : OracleComplete I R O ρ) (hR : RecOk I R ρ a) (hic : R.ics = [])
    {sol : Expr} (hs : Candidate R.n R.first R.order sol)
    (h0 : R.inhom = .num 0 → (splitSolution R.n true sol).2 = .num 0)
    (h : IsSolution I R.n R.rhs ρ sol R.first R.order) (p : Bool) : verifyFiniteOrder R O sol p = some (yes p) := by
  have hpos := hR.pos
  obtain ⟨L, w, hsp, hL, hw, hev⟩ := split_spec (K := K) hs
  obtain ⟨v, hf, g1, g2, g3⟩ := fill_complete hR hL hw.1 hev h
  rw [hsp] at h0
  have hS : ∀ (X : K → K) (u : K), eval (withX I X) (update ρ R.n u) sol
      = (∑ i ∈ Finset.range R.order, X ((R.first + i : ℕ) : K) * valAt I R.n ρ (v.getD i (.num 0)) u)
        + valAt I R.n ρ w u := by
    intro X u
    rw [hev, g3, wsum, g1, eval_valAt I hw.1]
    congr 1
    refine Finset.sum_congr rfl fun i _ => ?_
    rw [eval_valAt I (clean_getD g2 i).1]
    congr 1
    rw [xAt, eval_x]; simp [eval]
  obtain ⟨Z, hZ, hZ0⟩ := OnIC.forward_exists (order_at_most hR) fun _ => (0 : K)
  have hwZ : ∀ N : ℕ, R.first ≤ N → valAt I R.n ρ w N = Z N := by
    intro N hN
    rw [← h Z hZ N hN, hS, Finset.sum_eq_zero, zero_add]
    intro i hi
    rw [hZ0 i (by simpa using hi), zero_mul]
  have cast : ∀ m d : ℕ, R.first + R.order ≤ m → d ∈ Finset.Icc 1 R.order →
      (m : K) - d = ((m - d : ℕ) : K) ∧ R.first ≤ m - d := by
    intro m d hm hd
    have hd := Finset.mem_Icc.mp hd
    exact ⟨by rw [Nat.cast_sub (by omega)], by omega⟩
  have hin : InhomSat I R ρ a w := by
    intro m hm
    rw [hwZ m (by omega), hZ m hm, hR.lin _ m hm, eval_valAt I hR.inX]
    congr 1
    refine Finset.sum_congr rfl fun d hd => ?_
    obtain ⟨c1, c2⟩ := cast m d hm hd
    rw [c1, hwZ _ c2]
  have hX : ∀ j < R.order, ∃ X : K → K, SolvesAt I R.n R.rhs ρ X (R.first + R.order) ∧
      (∀ i < R.order, X ((R.first + i : ℕ) : K) = if i = j then 1 else 0) ∧
      ∀ N : ℕ, R.first ≤ N → valAt I R.n ρ (v.getD j (.num 0)) N = X N - Z N := by
    intro j hj
    obtain ⟨X, hX, hX0⟩ := OnIC.forward_exists (order_at_most hR) fun i => if i = j then (1 : K) else 0
    refine ⟨X, hX, hX0, fun N hN => ?_⟩
    have e1 := hS X N
    rw [h X hX N hN, Finset.sum_eq_single j, hX0 j hj, if_pos rfl, one_mul, hwZ N hN] at e1
    · rw [e1]; ring
    · intro i hi hne
      rw [hX0 i (by simpa using hi), if_neg hne, zero_mul]
    · intro hn; simp at hn; omega
  have hhom : ∀ j < R.order, HomSat I R ρ a (v.getD j (.num 0)) := by
    intro j hj m hm
    obtain ⟨X, h1, -, h3⟩ := hX j hj
    rw [h3 m (by omega), h1 m hm, hZ m hm, hR.lin _ m hm, hR.lin _ m hm, eval_valAt I hR.inX, eval_valAt I hR.inX,
      add_sub_add_right_eq_sub, ← Finset.sum_sub_distrib]
    refine Finset.sum_congr rfl fun d hd => ?_
    obtain ⟨c1, c2⟩ := cast m d hm hd
    rw [c1, h3 _ c2]; ring
  have hval : validateSymbolic R O v (joined L) w = true := by
    rw [validateSymbolic, List.all_eq_true]
    intro i hi
    have hi : i < R.order := by simpa using hi
    rw [hR.linear, if_pos rfl, Bool.and_eq_true, List.all_eq_true]
    refine ⟨fun j hj => ?_, ?_⟩
    · have hj : j < R.order := by rw [List.mem_range, g1] at hj; exact hj
      obtain ⟨X, -, h2, h3⟩ := hX j hj
      refine decide_eq_true (at_complete hC (clean_getD g2 j).1 (clean_getD g2 j).2 ?_)
      rw [h3 _ (by omega), h2 i hi, hZ0 i hi]
      split <;> simp
    · refine decide_eq_true (at_complete hC hw.1 hw.2 ?_)
      rw [hwZ _ (by omega), hZ0 i hi, Rat.cast_zero]
  have hvs : verifySolution R O sol p = some (yes p) := by
    unfold verifySolution
    rw [show decide (R.ics = []) = true by simp [hic], hsp]
    simp only [hR.linear, hic, and_self, if_true, hf, Option.bind_some, hval]
    exact steps_complete hO hC hR g2 hhom hw hin (fun _ => h0) p
  unfold verifyFiniteOrder
  rw [if_neg (by omega), hR.red]
  split <;> exact hvs

/-- **C144**, symbolic initial conditions: the verdict decides whether the solution is right. -/
theorem C144_iff (hO : OracleOk I R O ρ) (hC : OracleComplete I R O ρ) (hR : RecOk I R ρ a) (hic : R.ics = [])
    {sol : Expr} (hs : Candidate R.n R.first R.order sol) (hcl : R.constCoeff = true → CandidateInClass I R O ρ sol)
    (h0 : R.inhom = .num 0 → (splitSolution R.n true sol).2 = .num 0) (p : Bool) :
    verifyFiniteOrder R O sol p = some (yes p) ↔ IsSolution I R.n R.rhs ρ sol R.first R.order :=
  ⟨C40_solution_partial hO hR hic hs hcl, fun h => C144_symbolic hO hC hR hic hs h0 h p⟩

/-- **C144**, evaluated solution.  With initial conditions that are numbers, a solution that takes the values of the last
`order` of them and satisfies the recurrence is confirmed. -/
theorem C144_evaluated (hO : OracleOk I R O ρ) (hC : OracleComplete I R O ρ) (hR : RecOk I R ρ a) (hic : R.ics ≠ [])
    {sol : Expr} (hs : hasX sol = false ∧ idxNe R.n sol = true)
    (hv : ∀ i < R.order, ∃ q : ℚ, getIC R.ics (firstIC R + i) = .num q ∧ valAt I R.n ρ sol ((firstIC R + i : ℕ) : K) = q)
    (h : ∀ m : ℕ, R.first + R.order ≤ m →
      valAt I R.n ρ sol m = eval (withX I (valAt I R.n ρ sol)) (update ρ R.n m) R.rhs) (p : Bool) :
    verifyFiniteOrder R O sol p = some (yes p) := by
  have hpos := hR.pos
  have hsp : splitSolution R.n (decide (R.ics = [])) sol = (.num 0, sol) := by simp [splitSolution, hic]
  have hval : validateValues R O sol = true := by
    rw [validateValues, List.all_eq_true]
    intro i hi
    obtain ⟨q, h1, h2⟩ := hv i (by simpa using hi)
    refine decide_eq_true ?_
    exact (at_complete hC hs.1 hs.2 h2).trans h1.symm
  have hhom : ∀ j < R.order, HomSat I R ρ a ((List.replicate R.order (Expr.num 0)).getD j (.num 0)) := by
    intro j hj m hm
    have e1 : (List.replicate R.order (Expr.num 0)).getD j (.num 0) = .num 0 := by
      rw [List.getD_eq_getElem?_getD, List.getElem?_replicate]; split <;> rfl
    simp only [e1, valAt_zero, mul_zero, Finset.sum_const_zero]
  have hvs : verifySolution R O sol p = some (yes p) := by
    unfold verifySolution
    rw [hsp]
    simp only [hic, and_false, if_false, Option.bind_some, hval, if_true]
    refine steps_complete hO hC hR (clean_replicate _ _) hhom hs (fun m hm => ?_) (fun hi => absurd hi hic) p
    rw [h m hm, hR.lin _ m hm, eval_valAt I hR.inX]
  unfold verifyFiniteOrder
  rw [if_neg (by omega), hR.red]
  split <;> exact hvs

/-! ### Simplifications that meet the hypotheses exist for every recurrence -/

open Classical in
/-- The simplification that recognises constants. -/
noncomputable def idealSimp (I : Interp K) (R : Rec) (ρ : String → K) (e : Expr) : Expr :=
  if h : ∃ q : ℚ, hasX e = false ∧ idxNe R.n e = true ∧
      ∀ m : ℕ, R.first + R.order ≤ m → valAt I R.n ρ e m = q then .num h.choose else e

/-- The oracle that recognises constants. -/
noncomputable def idealOracle (I : Interp K) (R : Rec) (ρ : String → K) : Oracle :=
  ⟨idealSimp I R ρ, id, id, id, idealSimp I R ρ⟩

theorem idealSimp_num {e : Expr} {q : ℚ} (hx : hasX e = false) (hi : idxNe R.n e = true)
    (h : ∀ m : ℕ, R.first + R.order ≤ m → valAt I R.n ρ e m = q) : idealSimp I R ρ e = .num q := by
  have h1 : ∃ q : ℚ, hasX e = false ∧ idxNe R.n e = true ∧
      ∀ m : ℕ, R.first + R.order ≤ m → valAt I R.n ρ e m = q := ⟨q, hx, hi, h⟩
  rw [idealSimp, dif_pos h1]
  have h2 := h1.choose_spec.2.2 _ le_rfl
  rw [h _ le_rfl] at h2
  rw [Rat.cast_injective h2]

theorem idealSimp_keeps (I : Interp K) (R : Rec) (ρ : String → K) :
    Keeps I R.n ρ (R.first + R.order) (idealSimp I R ρ) := by
  have key : ∀ e, idealSimp I R ρ e = e ∨ ∃ q : ℚ, idealSimp I R ρ e = .num q ∧
      ∀ m : ℕ, R.first + R.order ≤ m → valAt I R.n ρ e m = q := by
    intro e
    unfold idealSimp
    split
    · next h => exact .inr ⟨_, rfl, h.choose_spec.2.2⟩
    · exact .inl rfl
  refine ⟨fun X e hx hi m hm => ?_, fun e hx _ => ?_, fun e _ hi => ?_⟩ <;> rcases key e with h | ⟨q, h, h'⟩ <;> rw [h]
  · rw [eval_valAt I hx, h' m hm]; simp [eval]
  · exact hx
  · simp [hasX]
  · exact hi
  · simp [idxNe]

theorem idealOracle_ok (I : Interp K) (R : Rec) (ρ : String → K) :
    OracleOk I R (idealOracle I R ρ) ρ ∧ OracleComplete I R (idealOracle I R ρ) ρ := by
  have hid : Keeps I R.n ρ (R.first + R.order) id := ⟨fun _ _ _ _ _ _ => rfl, fun _ h _ => h, fun _ _ h => h⟩
  refine ⟨⟨idealSimp_keeps I R ρ, hid, hid, idealSimp_keeps I R ρ⟩, ⟨fun e q hx hi h => idealSimp_num hx hi h, fun _ => rfl, fun e hx hi h => ?_⟩⟩
  exact idealSimp_num hx hi fun m hm => by rw [h m hm, Rat.cast_zero]

end

/-- **C144 (non-vacuity).**  `x(n) = 2 x(n-1)` with its solution `2^n x(0)`: the hypotheses of `C144_symbolic` are met by the
simplifications that recognise constants, so the solution is confirmed. -/
theorem C144_nonvacuous (ρ : String → ℝ) :
    let O := idealOracle (realInterp 0) recTwo ρ
    OracleOk (realInterp 0) recTwo O ρ ∧ OracleComplete (realInterp 0) recTwo O ρ ∧
    RecOk (realInterp 0) recTwo ρ (fun _ _ => 2) ∧ recTwo.ics = [] ∧
    Candidate recTwo.n recTwo.first recTwo.order (.mul [twoN, xAt 0]) ∧
    (splitSolution recTwo.n true (.mul [twoN, xAt 0])).2 = .num 0 ∧
    IsSolution (realInterp 0) recTwo.n recTwo.rhs ρ (.mul [twoN, xAt 0]) recTwo.first recTwo.order ∧
    verifyFiniteOrder recTwo O (.mul [twoN, xAt 0]) false = some .correct := by
  obtain ⟨h1, h2, h3, h4, h5, h6⟩ := two_hypotheses ρ false
  obtain ⟨o1, o2⟩ := idealOracle_ok (realInterp 0) recTwo ρ
  have hsol := C40_solution_partial h1 h2 h3 h4 (fun _ => h5) h6
  have hsp : (splitSolution recTwo.n true (.mul [twoN, xAt 0])).2 = .num 0 := by
    have h := hasOnlyIC_xAt "n" 0
    simp [splitSolution, twoN, hasOnlyIC, h, show recTwo.n = "n" from rfl]
  exact ⟨o1, o2, h2, h3, h4, hsp, hsol, C144_symbolic o1 o2 h2 h3 h4 (fun _ => hsp) hsol false⟩

end Purrs.Verify

namespace Purrs

open RecState
open Verify (Verdict Oracle yes verifyFiniteOrder OracleOk OracleComplete RecOk Candidate firstIC splitSolution valAt)
open OrderRed (IsSolution withX)
open Function (update)

variable {E : Engine} {K : Type} [Field K] [CharZero K] {I : Interp K} {R : Verify.Rec} {O : Oracle} {ρ : String → K}
  {a : ℕ → ℕ → K}

theorem verdictOn_correct {C : Checks} {s : RecState} (hC : ChecksAre C s R O)
    (hty : s.info.ty = .linConst ∨ s.info.ty = .linVar) {v : Expr} (h : verifyFiniteOrder R O v false = some (yes false)) :
    verdictOn C s.rhs s.info s.ics v = .verdict .correct := by
  unfold verdictOn
  rcases hty with hty | hty <;> rw [hty] <;> simp only <;> rw [hC.finite, h] <;> rfl

/-- **C144**, over histories, symbolic initial conditions.  After any history of calls on the object of a linear recurrence: a
right exact solution that was read is declared `PROVABLY_CORRECT`. -/
theorem C144_history {C : Checks} {e : Expr} {s : RecState} (h : RecReach E e s) (hC : ChecksAre C s R O)
    (hty : s.info.ty = .linConst ∨ s.info.ty = .linVar) (hO : OracleOk I R O ρ) (hOC : OracleComplete I R O ρ)
    (hR : RecOk I R ρ a) (hic : s.ics = []) {v : Expr} (hv : (query E .exact s).2 = some v)
    (hs : Candidate R.n R.first R.order v) (h0 : R.inhom = .num 0 → (splitSolution R.n true v).2 = .num 0)
    (hsol : IsSolution I R.n s.rhs ρ v s.info.first s.info.order) :
    verifyExact C (query E .exact s).1 false = .verdict .correct := by
  rw [C142_verdict_on_answer_partial C h hv]
  refine verdictOn_correct hC hty (Verify.C144_symbolic hO hOC hR (hC.ics.trans hic) hs h0 ?_ false)
  rw [hC.rhs, hC.first, hC.order]
  exact hsol

/-- **C144**, over histories, given initial conditions that are numbers. -/
theorem C144_history_evaluated {C : Checks} {e : Expr} {s : RecState} (h : RecReach E e s) (hC : ChecksAre C s R O)
    (hty : s.info.ty = .linConst ∨ s.info.ty = .linVar) (hO : OracleOk I R O ρ) (hOC : OracleComplete I R O ρ)
    (hR : RecOk I R ρ a) (hic : s.ics ≠ []) {v : Expr} (hv : (query E .exact s).2 = some v)
    (hs : hasX v = false ∧ OrderRed.idxNe R.n v = true)
    (hval : ∀ i < s.info.order, ∃ q : ℚ, Verify.getIC s.ics (firstIC R + i) = .num q ∧
      valAt I R.n ρ v ((firstIC R + i : ℕ) : K) = q)
    (hsol : ∀ m : ℕ, s.info.first + s.info.order ≤ m →
      valAt I R.n ρ v m = eval (withX I (valAt I R.n ρ v)) (update ρ R.n m) s.rhs) :
    verifyExact C (query E .exact s).1 false = .verdict .correct := by
  rw [C142_verdict_on_answer_partial C h hv]
  refine verdictOn_correct hC hty (Verify.C144_evaluated hO hOC hR (by rw [hC.ics]; exact hic) hs ?_ ?_ false)
  · rw [hC.order, hC.ics]; exact hval
  · rw [hC.rhs, hC.first, hC.order]; exact hsol

/-- **C144 (non-vacuity), given initial conditions.**  `x(n) = x(n-1)`, `x(0) = 5`: after computing, setting the initial
conditions and reading the answer 5, the verification confirms it, through the hypotheses of `C144_history_evaluated`. -/
theorem C144_history_nonvacuous (ρ : String → ℝ) : ∃ C : Checks,
    let R := constIC [(0, .num 5)]
    let s := unread (Verify.xAt 0) id 5
    RecReach (constEngine (Verify.xAt 0) id) (Verify.xDec "n" 1) s ∧
    ChecksAre C s R (Verify.idealOracle (realInterp 0) R ρ) ∧ s.ics ≠ [] ∧
    (query (constEngine (Verify.xAt 0) id) .exact s).2 = some (.num 5) ∧
    verifyExact C (query (constEngine (Verify.xAt 0) id) .exact s).1 false = .verdict .correct := by
  refine ⟨⟨fun _ _ _ v p => verifyFiniteOrder (constIC [(0, .num 5)]) (Verify.idealOracle (realInterp 0) (constIC [(0, .num 5)]) ρ) v p,
    fun _ _ _ _ => .inconclusive, fun _ _ => none, fun _ _ _ _ => .inconclusive⟩, unread_reach _ _ _,
    ⟨rfl, rfl, rfl, rfl, fun _ _ => rfl⟩, by rw [show (unread (Verify.xAt 0) id 5).ics = [(0, .num 5)] from rfl]; simp, rfl, ?_⟩
  obtain ⟨o1, o2⟩ := Verify.idealOracle_ok (realInterp 0) (constIC [(0, .num 5)]) ρ
  have h := Verify.recConst_ok ρ
  have hR : RecOk (realInterp 0) (constIC [(0, .num 5)]) ρ (fun _ _ => 1) :=
    ⟨h.out, h.inX, h.inI, h.lin, h.pos, h.gcd, h.linear, h.red⟩
  refine C144_history_evaluated (R := constIC [(0, .num 5)]) (v := .num 5) (unread_reach (Verify.xAt 0) id 5)
    ⟨rfl, rfl, rfl, rfl, fun _ _ => rfl⟩ (Or.inl rfl) o1 o2 hR
    (by rw [show (unread (Verify.xAt 0) id 5).ics = [(0, .num 5)] from rfl]; simp) rfl
    (by simp [hasX, OrderRed.idxNe]) (fun i hi => ⟨5, ?_, by simp [valAt, eval]⟩) (fun m hm => ?_)
  · have hi : i < 1 := hi
    obtain rfl : i = 0 := by omega
    rfl
  · rw [show (unread (Verify.xAt 0) id 5).rhs = Verify.xDec "n" 1 from rfl, Verify.xDec, OrderRed.eval_x]
    simp [valAt, eval]

end Purrs
