import Verif.Model.OldMethod
import Verif.Props.SolveLinear
import Verif.Props.EvalRules

/-!
# The old method of the linear solver (C161)
-/

set_option linter.unusedSectionVars false

namespace Purrs.OldMethod

open Function (update update_of_ne update_self)
open OrderRed (withX IsSolution idxNe)
open OnIC (Shape shape_addE shape_mulE shape_powE shape_substitute shape_hasX shape_mono)
open WeightedAvg (divE eval_divE)
open Verify (xAt)
open SolveLin
open Exact (oldSolution2 LinRec AreRoots Solves SysSolved findG findGLoop rootsOrder g2 sum2 convolution termIC Fundamental)

variable {K : Type} [Field K] [CharZero K] {I : Interp K}

/-! ### Specification -/

/-- The valuation differs from `ρ` at most in `n` and `h`. -/
def Off (n h : String) (ρ σ : String → K) : Prop := ∀ t, t ≠ n → t ≠ h → σ t = ρ t

/-- The expression has the value `v`, whatever `n`, `h` and `x` are. -/
def ConstIs (I : Interp K) (n h : String) (ρ : String → K) (e : Expr) (v : K) : Prop :=
  ∀ (X : K → K) (σ : String → K), Off n h ρ σ → eval (withX I X) σ e = v

/-- At the integers the expression has the values `G`, whatever `h` and `x` are. -/
def AlongZ (I : Interp K) (n h : String) (ρ : String → K) (e : Expr) (G : ℤ → K) : Prop :=
  ∀ (X : K → K) (σ : String → K) (z : ℤ), Off n h ρ σ → σ n = z → eval (withX I X) σ e = G z

/-- From `f` on the expression has the values `p`, whatever `h` and `x` are. -/
def Along (I : Interp K) (n h : String) (ρ : String → K) (f : ℕ) (e : Expr) (p : ℕ → K) : Prop :=
  ∀ (X : K → K) (σ : String → K) (N : ℕ), f ≤ N → Off n h ρ σ → σ n = N → eval (withX I X) σ e = p N

/-! ### Substitution -/

section
variable {n h : String} {ρ : String → K}

/-- Substituting for `n` an expression whose value does not depend on the summation indices. -/
theorem eval_subst (J : Interp K) {B0 : String → Prop} {S : ℚ → Prop} (hn : ¬ B0 n) {r : Expr}
    (hr : ∀ (ρ : String → K) s v, B0 s → eval J (update ρ s v) r = eval J ρ r) {e : Expr} (he : Shape B0 S e) (σ : String → K) :
    eval J σ (substitute (.sym n) r e) = eval J (update σ n (eval J σ r)) e := by
  apply C100_capture_free_partial
  induction e using Expr.ind with
  | num q => simp [CaptureFree]
  | const q => simp [CaptureFree]
  | sym s => simp [CaptureFree]
  | add l ih => simp only [Shape] at he; simp [CaptureFree]; exact fun a ha => ih a ha (he a ha)
  | mul l ih => simp only [Shape] at he; simp [CaptureFree]; exact fun a ha => ih a ha (he a ha)
  | pow b e hb he' => simp only [Shape] at he; simp [CaptureFree]; exact ⟨hb he.1, he' he.2⟩
  | fn f l ih => rw [Shape] at he; simp [CaptureFree]; exact fun a ha => ih a ha (he.2 a ha)
  | binder k i a b c hi ha hb hc =>
    simp only [Shape] at he
    obtain ⟨⟨t, rfl, ht⟩, h2, h3, h4⟩ := he
    simp only [CaptureFree]
    exact ⟨ha h2, hb h3, hc h4, t, rfl, fun e => hn (e ▸ ht), fun ρ v => hr ρ t v ht⟩

theorem off_n {σ : String → K} (v : K) (hs : Off n h ρ σ) : Off n h ρ (update σ n v) := fun t h1 h2 => by
  rw [update_of_ne h1, hs t h1 h2]

theorem off_h {σ : String → K} (v : K) (hs : Off n h ρ σ) : Off n h ρ (update σ h v) := fun t h1 h2 => by
  rw [update_of_ne h2, hs t h1 h2]

theorem off_self : Off n h ρ ρ := fun _ _ _ => rfl

variable {B0 : String → Prop}

/-- `g(n - h)`. -/
theorem subst_shift (hn : ¬ B0 n) (hh : ¬ B0 h) {g : Expr} {S : ℚ → Prop} (hg : Shape B0 S g) {G : ℤ → K} (hG : AlongZ I n h ρ g G) (X : K → K)
    {σ : String → K} (hs : Off n h ρ σ) {z j : ℤ} (hz : σ n = z) (hj : σ h = j) :
    eval (withX I X) σ (substitute (.sym n) (subE (.sym n) (.sym h)) g) = G (z - j) := by
  rw [eval_subst (withX I X) hn (fun τ s v hsb => ?_) hg]
  · refine hG X _ _ (off_n _ hs) ?_
    rw [update_self, eval_subE]
    simp only [eval]
    rw [hz, hj]
    push_cast
    ring
  · rw [eval_subE, eval_subE]
    simp only [eval]
    rw [update_of_ne (by rintro rfl; exact hn hsb), update_of_ne (by rintro rfl; exact hh hsb)]

/-- `p(h)`. -/
theorem subst_index (hn : ¬ B0 n) (hh : ¬ B0 h) {e : Expr} {S : ℚ → Prop} (he : Shape B0 S e) {f : ℕ} {p : ℕ → K} (hp : Along I n h ρ f e p)
    (X : K → K) {σ : String → K} (hs : Off n h ρ σ) {j : ℕ} (hj : σ h = j) (hf : f ≤ j) :
    eval (withX I X) σ (substitute (.sym n) (.sym h) e) = p j := by
  rw [eval_subst (withX I X) hn (fun τ s v hsb => ?_) he]
  · refine hp X _ j hf (off_n _ hs) ?_
    rw [update_self, eval, hj]
  · simp only [eval]
    rw [update_of_ne (by rintro rfl; exact hh hsb)]

/-- `g(n - i - f)`. -/
theorem subst_ic (hn : ¬ B0 n) {g : Expr} {S : ℚ → Prop} (hg : Shape B0 S g) {G : ℤ → K} (hG : AlongZ I n h ρ g G) (X : K → K)
    {σ : String → K} (hs : Off n h ρ σ) {z : ℤ} (hz : σ n = z) (i f : ℕ) :
    eval (withX I X) σ (substitute (.sym n) (subE (subE (.sym n) (.num i)) (.num f)) g) = G (z - i - f) := by
  rw [eval_subst (withX I X) hn (fun τ s v hsb => ?_) hg]
  · refine hG X _ _ (off_n _ hs) ?_
    rw [update_self, eval_subE, eval_subE]
    simp only [eval]
    rw [hz]
    push_cast
    ring
  · simp only [eval_subE, eval]
    rw [update_of_ne (by rintro rfl; exact hn hsb)]

/-! ### The fundamental solution -/

theorem pow_n {r : Expr} {v : K} (hr : ConstIs I n h ρ r v) (X : K → K) {σ : String → K} (hs : Off n h ρ σ) {z : ℤ} (hz : σ n = z) :
    eval (withX I X) σ (powE r (.sym n)) = v ^ z := by
  rw [eval_powE, hr X σ hs]
  simp only [eval]
  rw [hz, (withX I X).pw_int]

theorem pow_n1 {r : Expr} {v : K} (hr : ConstIs I n h ρ r v) (X : K → K) {σ : String → K} (hs : Off n h ρ σ) {z : ℤ} (hz : σ n = z) :
    eval (withX I X) σ (powE r (addE (.sym n) (.num 1))) = v ^ (z + 1) := by
  rw [eval_powE, hr X σ hs, eval_addE]
  simp only [eval]
  rw [hz, show ((z : K) + ((1 : ℚ) : K)) = ((z + 1 : ℤ) : K) by push_cast; ring, (withX I X).pw_int]

theorem pow_negh {r : Expr} {v : K} (hr : ConstIs I n h ρ r v) (X : K → K) {σ : String → K} (hs : Off n h ρ σ) {j : ℤ} (hj : σ h = j) :
    eval (withX I X) σ (powE r (negE (.sym h))) = v ^ (-j) := by
  rw [eval_powE, hr X σ hs, negE, eval_mulE]
  simp only [eval]
  rw [hj, show (((-1 : ℚ) : K) * (j : K)) = ((-j : ℤ) : K) by push_cast; ring, (withX I X).pw_int]

theorem pow_nat_int (X : K → K) (z : ℤ) (j : ℕ) : (withX I X).pw (z : K) ((j : ℚ) : K) = (z : K) ^ j := by
  rw [Rat.cast_natCast, pw_nat]

variable {sol : ℕ → Expr} {sv : ℕ → K} {rv : Expr → K}

theorem findLoop_value (hsol : ∀ i, ConstIs I n h ρ (sol i) (sv i)) (rs : List (Expr × ℕ)) (hr : ∀ r ∈ rs, ConstIs I n h ρ r.1 (rv r.1))
    (X : K → K) {σ : String → K} (hs : Off n h ρ σ) {z : ℤ} (hz : σ n = z) (i : ℕ) (g : Expr) :
    eval (withX I X) σ (findLoopE n sol rs i g) = findGLoop sv z (rs.map fun r => (rv r.1, r.2)) i (eval (withX I X) σ g) := by
  induction rs generalizing i g with
  | nil => rfl
  | cons r rs ih =>
    have key : ∀ (l : List ℕ) (i : ℕ) (g : Expr),
        (l.foldl (fun (st : ℕ × Expr) (j : ℕ) =>
            (st.1 + 1, addE st.2 (mulE (mulE (sol st.1) (powE (.sym n) (.num j))) (powE r.1 (.sym n))))) (i, g)).1
          = (l.foldl (fun (st : ℕ × K) j => (st.1 + 1, st.2 + sv st.1 * (z : K) ^ j * rv r.1 ^ z)) (i, eval (withX I X) σ g)).1 ∧
        eval (withX I X) σ (l.foldl (fun (st : ℕ × Expr) (j : ℕ) =>
            (st.1 + 1, addE st.2 (mulE (mulE (sol st.1) (powE (.sym n) (.num j))) (powE r.1 (.sym n))))) (i, g)).2
          = (l.foldl (fun (st : ℕ × K) j => (st.1 + 1, st.2 + sv st.1 * (z : K) ^ j * rv r.1 ^ z)) (i, eval (withX I X) σ g)).2 := by
      intro l
      induction l with
      | nil => intro i g; exact ⟨rfl, rfl⟩
      | cons j l ihl =>
        intro i g
        rw [List.foldl_cons, List.foldl_cons]
        have := ihl (i + 1) (addE g (mulE (mulE (sol i) (powE (.sym n) (.num j))) (powE r.1 (.sym n))))
        have e : eval (withX I X) σ (addE g (mulE (mulE (sol i) (powE (.sym n) (.num j))) (powE r.1 (.sym n))))
            = eval (withX I X) σ g + sv i * (z : K) ^ j * rv r.1 ^ z := by
          rw [eval_addE, eval_mulE, eval_mulE, hsol i X σ hs, pow_n (hr r (by simp)) X hs hz, eval_powE]
          simp only [eval]
          rw [hz, pow_nat_int]
        rw [e] at this
        exact this
    rw [List.map_cons, findLoopE, findGLoop]
    dsimp only
    rw [ih fun r hr' => hr r (by simp [hr']), (key _ i g).1, (key _ i g).2]

theorem rootsOrderE_eq (roots : List (Expr × ℕ)) : rootsOrderE roots = rootsOrder (roots.map fun r => (rv r.1, r.2)) := by
  unfold rootsOrderE rootsOrder
  rw [List.foldr_map]

theorem findG_value (ad : Bool) (hsol : ∀ i, ConstIs I n h ρ (sol i) (sv i)) (roots : List (Expr × ℕ))
    (hr : ∀ r ∈ roots, ConstIs I n h ρ r.1 (rv r.1)) (hlen : ad = true → rootsOrderE roots ≤ roots.length) :
    AlongZ I n h ρ (findGE n ad sol roots) (findG ad sv (roots.map fun r => (rv r.1, r.2))) := by
  intro X σ z hs hz
  unfold findGE findG
  cases ad with
  | false =>
    simp only [Bool.false_eq_true, if_false]
    rw [findLoop_value hsol _ (fun r h => hr r (by simpa using h)) X hs hz, List.map_reverse]
    simp [eval]
  | true =>
    simp only [if_true]
    rw [← rootsOrderE_eq]
    have hl := hlen rfl
    have key : ∀ m ≤ roots.length, eval (withX I X) σ
        ((List.range m).foldl (fun g i => addE g (mulE (sol i) (powE (roots.getD i (.num 0, 0)).1 (.sym n)))) (.num 0))
        = (List.range m).foldl (fun g i => g + sv i * ((roots.map fun r => (rv r.1, r.2)).getD i (0, 0)).1 ^ z) 0 := by
      intro m
      induction m with
      | zero => intro _; simp [eval]
      | succ m ih =>
        intro hm
        have hm' : m < roots.length := by omega
        rw [List.range_succ, List.foldl_append, List.foldl_append, List.foldl_cons, List.foldl_cons, List.foldl_nil, List.foldl_nil, eval_addE,
          ih (by omega), eval_mulE, hsol m X σ hs]
        have e1 : roots.getD m (.num 0, 0) = roots[m] := by simp [hm']
        have e2 : (roots.map fun r => (rv r.1, r.2)).getD m (0, 0) = (rv roots[m].1, roots[m].2) := by simp [hm']
        rw [e1, e2, pow_n (hr _ (List.getElem_mem hm')) X hs hz]
    exact key _ hl

theorem g2_value {r1 r2 diff : Expr} {v1 v2 : K} (h1 : ConstIs I n h ρ r1 v1) (h2 : ConstIs I n h ρ r2 v2)
    (hd : ConstIs I n h ρ diff (v1 - v2)) : AlongZ I n h ρ (g2E n r1 r2 diff) (g2 v1 v2) := by
  intro X σ z hs hz
  rw [g2E, eval_divE, eval_subE, pow_n1 h1 X hs hz, pow_n1 h2 X hs hz, hd X σ hs, g2]

/-! ### The sums -/

variable {f k : ℕ} {p : ℕ → K} {inhom : Expr}

theorem sum_value (hstd : EvalRules.StdBind I) (lower : ℕ) (body : Expr) (F : ℕ → K) (X : K → K) {σ : String → K} {N : ℕ} (hz : σ n = N)
    (hb : ∀ j : ℕ, lower ≤ j → j ≤ N → eval (withX I X) (update σ h j) body = F j) :
    eval (withX I X) σ (.binder .sum (.sym h) (.num (lower : ℚ)) (.sym n) body) = ∑ j ∈ Finset.Icc (lower : ℤ) N, F j.toNat := by
  have e : eval (withX I X) σ (.binder .sum (.sym h) (.num (lower : ℚ)) (.sym n) body)
      = I.bind .sum ((lower : ℤ) : K) ((N : ℤ) : K) fun v => eval (withX I X) (update σ h v) body := by
    rw [eval]
    simp only [eval]
    rw [hz]
    push_cast
    rfl
  rw [e, hstd.sum]
  refine Finset.sum_congr rfl fun j hj => ?_
  obtain ⟨h1, h2⟩ := Finset.mem_Icc.mp hj
  obtain ⟨m, rfl⟩ : ∃ m : ℕ, j = m := ⟨j.toNat, by omega⟩
  rw [Int.toNat_natCast, Int.cast_natCast]
  exact hb m (by omega) (by omega)

theorem conv_value (hstd : EvalRules.StdBind I) (hn : ¬ B0 n) (hh : ¬ B0 h) (hnh : h ≠ n) {g : Expr} (hg : Shape B0 (fun _ => False) g) {G : ℤ → K}
    (hG : AlongZ I n h ρ g G) (hi : Shape B0 (fun _ => False) inhom) (hp : Along I n h ρ f inhom p) (a : ℕ → K) (X : K → K) {σ : String → K}
    (hs : Off n h ρ σ) {N : ℕ} (hz : σ n = N) :
    eval (withX I X) σ (convE n h f k g inhom) = convolution (⟨k, a, fun m => p m.toNat, f⟩ : LinRec K) G N := by
  unfold convE
  rw [sum_value hstd (f + k) _ (fun j => G (N - j) * p j) X hz fun j h1 h2 => ?_]
  · unfold convolution
    refine Finset.sum_congr (by push_cast; rfl) fun j hj => ?_
    have := (Finset.mem_Icc.mp hj).1
    have e : ((j.toNat : ℕ) : ℤ) = j := Int.toNat_of_nonneg (by omega)
    rw [e]
  · have ho := off_h (n := n) (h := h) (j : K) hs
    rw [eval_mulE, subst_shift hn hh hg hG X ho (z := N) (j := j) (by rw [update_of_ne hnh.symm, hz]; simp) (by simp),
      subst_index hn hh hi hp X ho (j := j) (by simp) (by omega)]

theorem rootSum_value (hstd : EvalRules.StdBind I) (hn : ¬ B0 n) (hh : ¬ B0 h) {r : Expr} {v : K} (hr : ConstIs I n h ρ r v)
    (hi : Shape B0 (fun _ => False) inhom) (hp : Along I n h ρ f inhom p) {lower : ℕ} (hl : f ≤ lower) (X : K → K) {σ : String → K}
    (hs : Off n h ρ σ) {N : ℕ} (hz : σ n = N) :
    eval (withX I X) σ (rootSum n h lower r inhom) = ∑ j ∈ Finset.Icc (lower : ℤ) N, v ^ (-j) * p j.toNat := by
  unfold rootSum
  rw [sum_value hstd lower _ (fun j => v ^ (-(j : ℤ)) * p j) X hz fun j h1 h2 => ?_]
  · refine Finset.sum_congr rfl fun j hj => ?_
    have := (Finset.mem_Icc.mp hj).1
    have e : ((j.toNat : ℕ) : ℤ) = j := Int.toNat_of_nonneg (by omega)
    rw [e]
  · have ho := off_h (n := n) (h := h) (j : K) hs
    rw [eval_mulE, pow_negh hr X ho (j := j) (by simp), subst_index hn hh hi hp X ho (j := j) (by simp) (by omega)]

theorem sum2_value (hstd : EvalRules.StdBind I) (hn : ¬ B0 n) (hh : ¬ B0 h) {r1 r2 diff : Expr} {v1 v2 : K} (h1 : ConstIs I n h ρ r1 v1)
    (h2 : ConstIs I n h ρ r2 v2) (hd : ConstIs I n h ρ diff (v1 - v2)) (hi : Shape B0 (fun _ => False) inhom) (hp : Along I n h ρ f inhom p)
    (a : ℕ → K) (X : K → K) {σ : String → K} (hs : Off n h ρ σ) {N : ℕ} (hz : σ n = N) :
    eval (withX I X) σ (sum2E n h f r1 r2 diff inhom) = sum2 (⟨2, a, fun m => p m.toNat, f⟩ : LinRec K) v1 v2 N := by
  have hz' : σ n = ((N : ℤ) : K) := by rw [hz]; simp
  rw [sum2E, eval_mulE, eval_divE, eval_subE, eval_mulE, eval_mulE, hd X σ hs, pow_n1 h1 X hs hz', pow_n1 h2 X hs hz',
    rootSum_value hstd hn hh h1 hi hp (by omega) X hs hz, rootSum_value hstd hn hh h2 hi hp (by omega) X hs hz, sum2]
  simp only [eval, Rat.cast_one]
  push_cast
  rfl

/-! ### The initial conditions -/

theorem icTmp_value (co : ℕ → ℚ) (i : ℕ) (X : K → K) (σ : String → K) :
    eval (withX I X) σ (icTmp f co i)
      = (List.range i).foldr (fun (j : ℕ) tmp => tmp - (co (j + 1) : K) * X ((f + i - (j + 1) : ℕ) : K)) (X ((f + i : ℕ) : K)) := by
  unfold icTmp
  generalize List.range i = l
  induction l with
  | nil => simp only [List.foldr_nil]; exact eval_xAt _ _ _ _
  | cons j l ih => rw [List.foldr_cons, List.foldr_cons, eval_subE, ih, eval_mulE, eval_xAt, eval]

theorem termIC_value (hn : ¬ B0 n) {g : Expr} {S : ℚ → Prop} (hg : Shape B0 S g) {G : ℤ → K} (hG : AlongZ I n h ρ g G) (co : ℕ → ℚ) (X : K → K)
    (q : ℤ → K) {σ : String → K} (hs : Off n h ρ σ) {z : ℤ} (hz : σ n = z) :
    eval (withX I X) σ (termICE n f co k g) = termIC (⟨k, fun i => (co i : K), q, f⟩ : LinRec K) G (fun m => X ((m.toNat : ℕ) : K)) z := by
  unfold termICE termIC
  dsimp only
  generalize List.range k = l
  induction l with
  | nil => simp [eval]
  | cons i l ih =>
    rw [List.foldr_cons, List.foldr_cons, eval_addE, ih, eval_mulE, subst_ic hn hg hG X hs hz, icTmp_value]
    congr 2
    have e : ∀ l : List ℕ, (∀ j ∈ l, j < i) →
        l.foldr (fun (j : ℕ) tmp => tmp - (co (j + 1) : K) * X ((f + i - (j + 1) : ℕ) : K)) (X ((f + i : ℕ) : K))
          = l.foldr (fun (j : ℕ) tmp => tmp - (co (j + 1) : K) * X ((((f : ℤ) + i - (j + 1)).toNat : ℕ) : K)) (X ((((f : ℤ) + i).toNat : ℕ) : K)) := by
      intro l
      induction l with
      | nil => intro _; simp only [List.foldr_nil]; congr 2
      | cons j l ih =>
        intro hl
        have := hl j (by simp)
        rw [List.foldr_cons, List.foldr_cons, ih fun j hj => hl j (by simp [hj])]
        congr 4
        omega
    exact e _ fun j hj => List.mem_range.mp hj

/-! ### Shapes -/

variable {B : String → Prop} {S : ℚ → Prop}

theorem shape_foldl_addE {α : Type} (g : α → Expr) : ∀ (l : List α) (z : Expr), Shape B S z → (∀ a ∈ l, Shape B S (g a)) →
    Shape B S (l.foldl (fun acc a => addE acc (g a)) z) := by
  intro l
  induction l with
  | nil => intro z hz _; exact hz
  | cons a l ih => intro z hz h; exact ih _ (shape_addE hz (h a (by simp))) fun b hb => h b (by simp [hb])

theorem shape_divE {x y : Expr} (hx : Shape B S x) (hy : Shape B S y) : Shape B S (divE x y) :=
  shape_mulE hx (shape_powE hy (by simp [Shape]))

theorem shape_sym (t : String) : Shape B S (.sym t) := by simp [Shape]

theorem shape_num (q : ℚ) : Shape B S (.num q) := by simp [Shape]

theorem shape_findLoop (n : String) (hsol : ∀ i, Shape B S (sol i)) : ∀ (rs : List (Expr × ℕ)), (∀ r ∈ rs, Shape B S r.1) →
    ∀ (i : ℕ) (g : Expr), Shape B S g → Shape B S (findLoopE n sol rs i g) := by
  intro rs
  induction rs with
  | nil => intro _ i g hg; exact hg
  | cons r rs ih =>
    intro hr i g hg
    rw [findLoopE]
    refine ih (fun r' h => hr r' (by simp [h])) _ _ ?_
    have key : ∀ (l : List ℕ) (st : ℕ × Expr), Shape B S st.2 →
        Shape B S (l.foldl (fun (st : ℕ × Expr) (j : ℕ) =>
          (st.1 + 1, addE st.2 (mulE (mulE (sol st.1) (powE (.sym n) (.num j))) (powE r.1 (.sym n))))) st).2 := by
      intro l
      induction l with
      | nil => intro st h; exact h
      | cons j l ihl =>
        intro st h
        rw [List.foldl_cons]
        exact ihl _ (shape_addE h (shape_mulE (shape_mulE (hsol _) (shape_powE (shape_sym n) (shape_num _))) (shape_powE (hr r (by simp)) (shape_sym n))))
    exact key _ (i, g) hg

theorem shape_findG (n : String) (ad : Bool) (hsol : ∀ i, Shape B S (sol i)) (roots : List (Expr × ℕ)) (hr : ∀ r ∈ roots, Shape B S r.1) :
    Shape B S (findGE n ad sol roots) := by
  have hg : ∀ i, Shape B S (roots.getD i (.num 0, 0)).1 := by
    intro i
    by_cases hi : i < roots.length
    · rw [List.getD_eq_getElem _ _ hi]; exact hr _ (List.getElem_mem hi)
    · rw [List.getD_eq_default _ _ (by omega)]; exact shape_num _
  unfold findGE
  split
  · exact shape_foldl_addE (fun i => mulE (sol i) (powE (roots.getD i (.num 0, 0)).1 (.sym n))) _ _ (shape_num _) fun i _ =>
      shape_mulE (hsol i) (shape_powE (hg i) (shape_sym n))
  · exact shape_findLoop n hsol _ (fun r h => hr r (by simpa using h)) _ _ (shape_num _)

theorem shape_root (roots : List (Expr × ℕ)) (hr : ∀ r ∈ roots, Shape B S r.1) : Shape B S (root1 roots) ∧ Shape B S (root2 roots) := by
  have hg : ∀ i, Shape B S (roots.getD i (.num 0, 0)).1 := by
    intro i
    by_cases hi : i < roots.length
    · rw [List.getD_eq_getElem _ _ hi]; exact hr _ (List.getElem_mem hi)
    · rw [List.getD_eq_default _ _ (by omega)]; exact shape_num _
  exact ⟨hg 0, hg 1⟩

theorem shape_g2 (n : String) {r1 r2 diff : Expr} (h1 : Shape B S r1) (h2 : Shape B S r2) (hd : Shape B S diff) : Shape B S (g2E n r1 r2 diff) :=
  shape_divE (shape_subE (shape_powE h1 (shape_addE (shape_sym n) (shape_num 1))) (shape_powE h2 (shape_addE (shape_sym n) (shape_num 1)))) hd

theorem shape_substS (hn : ¬ B n) {r e : Expr} (hr : Shape B S r) (he : Shape B S e) : Shape B S (substitute (.sym n) r e) :=
  shape_substitute hr (by simp) (fun t ht h => by cases h; exact hn ht) (fun q hq _ => hq) he

theorem shape_rootSum (hn : ¬ B n) (hh : B h) (lower : ℕ) {r : Expr} (hr : Shape B S r) (hi : Shape B S inhom) :
    Shape B S (rootSum n h lower r inhom) := by
  unfold rootSum
  rw [Shape]
  exact ⟨⟨h, rfl, hh⟩, shape_num _, shape_sym n, shape_mulE (shape_powE hr (shape_mulE (shape_num _) (shape_sym h))) (shape_substS hn (shape_sym h) hi)⟩

theorem shape_sum2 (hn : ¬ B n) (hh : B h) {r1 r2 diff : Expr} (h1 : Shape B S r1) (h2 : Shape B S r2) (hd : Shape B S diff) (hi : Shape B S inhom) :
    Shape B S (sum2E n h f r1 r2 diff inhom) := by
  have hp : Shape B S (addE (.sym n) (.num 1)) := shape_addE (shape_sym n) (shape_num 1)
  exact shape_mulE (shape_divE (shape_num _) hd) (shape_subE (shape_mulE (shape_powE h1 hp) (shape_rootSum hn hh _ h1 hi))
    (shape_mulE (shape_powE h2 hp) (shape_rootSum hn hh _ h2 hi)))

theorem shape_conv (hn : ¬ B n) (hh : B h) {g : Expr} (hg : Shape B S g) (hi : Shape B S inhom) : Shape B S (convE n h f k g inhom) := by
  unfold convE
  rw [Shape]
  exact ⟨⟨h, rfl, hh⟩, shape_num _, shape_sym n,
    shape_mulE (shape_substS hn (shape_subE (shape_sym n) (shape_sym h)) hg) (shape_substS hn (shape_sym h) hi)⟩

theorem shape_icTmp (co : ℕ → ℚ) {i : ℕ} (hi : i < k) : Shape B (ICs f k) (icTmp f co i) := by
  unfold icTmp
  have key : ∀ l : List ℕ, (∀ j ∈ l, j < i) → Shape B (ICs f k)
      (l.foldr (fun j tmp => subE tmp (mulE (.num (co (j + 1))) (xAt (f + i - (j + 1))))) (xAt (f + i))) := by
    intro l
    induction l with
    | nil => intro _; exact shape_xAt B hi
    | cons j l ih =>
      intro hl
      have := hl j (by simp)
      rw [List.foldr_cons]
      refine shape_subE (ih fun j' h' => hl j' (by simp [h'])) (shape_mulE (shape_num _) ?_)
      rw [show f + i - (j + 1) = f + (i - (j + 1)) by omega]
      exact shape_xAt B (by omega)
  exact key _ fun j hj => List.mem_range.mp hj

theorem shape_termIC (hn : ¬ B n) (co : ℕ → ℚ) {g : Expr} (hg : Shape B (ICs f k) g) : Shape B (ICs f k) (termICE n f co k g) := by
  unfold termICE
  have key : ∀ l : List ℕ, (∀ j ∈ l, j < k) → Shape B (ICs f k) (l.foldr (fun i term =>
      addE term (mulE (icTmp f co i) (substitute (.sym n) (subE (subE (.sym n) (.num i)) (.num f)) g))) (.num 0)) := by
    intro l
    induction l with
    | nil => intro _; exact shape_num _
    | cons i l ih =>
      intro hl
      rw [List.foldr_cons]
      exact shape_addE (ih fun j' h' => hl j' (by simp [h'])) (shape_mulE (shape_icTmp co (hl i (by simp)))
        (shape_substS hn (shape_subE (shape_subE (shape_sym n) (shape_num _)) (shape_num _)) hg))
  exact key _ fun j hj => List.mem_range.mp hj

theorem shape_le {B' : String → Prop} (hB : ∀ t, B t → B' t) {e : Expr} (he : Shape B S e) : Shape B' S e := by
  induction e using Expr.ind with
  | num q => simp [Shape]
  | const q => simp [Shape]
  | sym s => simp [Shape]
  | add l ih => simp only [Shape] at he ⊢; exact fun a ha => ih a ha (he a ha)
  | mul l ih => simp only [Shape] at he ⊢; exact fun a ha => ih a ha (he a ha)
  | pow b e hb he' => simp only [Shape] at he ⊢; exact ⟨hb he.1, he' he.2⟩
  | fn f l ih => rw [Shape] at he ⊢; exact ⟨he.1, fun a ha => ih a ha (he.2 a ha)⟩
  | binder k i a b c hi ha hb hc =>
    simp only [Shape] at he ⊢
    obtain ⟨⟨t, rfl, ht⟩, h2, h3, h4⟩ := he
    exact ⟨⟨t, rfl, hB t ht⟩, ha h2, hb h3, hc h4⟩

/-! ### The theorem -/

/-- The recurrence and what the solver computes from it: the coefficients `co`, the inhomogeneous term, the roots of the characteristic equation with
their multiplicities, the solution `sol` of the system for the fundamental solution and the difference `diff` of the first two roots.  `B0` are the
summation indices that occur in them. -/
structure Given (I : Interp K) (n h : String) (B0 : String → Prop) (ρ : String → K) (f k : ℕ) (co : ℕ → ℚ) (rhs inhom : Expr) (p : ℕ → K)
    (roots : List (Expr × ℕ)) (rv : Expr → K) (ad : Bool) (sol : ℕ → Expr) (sv : ℕ → K) (diff : Expr) : Prop where
  lin : ∀ (X : K → K) (N : ℕ), f + k ≤ N →
    eval (withX I X) (update ρ n (N : K)) rhs = (∑ i ∈ Finset.range k, (co (i + 1) : K) * X ((N - (i + 1) : ℕ) : K)) + p N
  last : co k ≠ 0
  inhomVal : Along I n h ρ f inhom p
  inhomShape : Shape B0 (fun _ => False) inhom
  rootVal : ∀ r ∈ roots, ConstIs I n h ρ r.1 (rv r.1)
  rootShape : ∀ r ∈ roots, Shape B0 (fun _ => False) r.1
  are : AreRoots (⟨k, fun i => (co i : K), fun _ => 0, f⟩ : LinRec K) (roots.map fun r => (rv r.1, r.2))
  mult : ∀ r ∈ roots, 1 ≤ r.2
  distinct : ad = true → ∀ r ∈ roots, r.2 = 1
  solVal : ∀ i, ConstIs I n h ρ (sol i) (sv i)
  solShape : ∀ i, Shape B0 (fun _ => False) (sol i)
  system : SysSolved ad (⟨k, fun i => (co i : K), fun _ => 0, f⟩ : LinRec K) (roots.map fun r => (rv r.1, r.2)) sv
  diffVal : ConstIs I n h ρ diff (rv (root1 roots) - rv (root2 roots))
  diffShape : Shape B0 (fun _ => False) diff
  apart : ad = true → rv (root1 roots) ≠ rv (root2 roots)

theorem rootsOrder_sum (l : List (K × ℕ)) : rootsOrder l = (l.map Prod.snd).sum := by
  unfold rootsOrder
  induction l with
  | nil => rfl
  | cons a l ih => rw [List.foldr_cons, ih, List.map_cons, List.sum_cons, add_comm]

theorem sum_ones (l : List (Expr × ℕ)) (h : ∀ r ∈ l, r.2 = 1) : (l.map fun r => r.2).sum = l.length := by
  induction l with
  | nil => rfl
  | cons a l ih =>
    rw [List.map_cons, List.sum_cons, ih fun r hr => h r (by simp [hr]), h a (by simp), List.length_cons, add_comm]

/-- **C161**.  When the inhomogeneous term is not a sum of polynomials times exponentials, the answer of the linear solver for order at least 2 solves the
recurrence; in it `x` occurs only as `x(f), …, x(f + k - 1)`. -/
theorem C161_old_method {O : Ops} {ρ : String → K} (hstd : EvalRules.StdBind I) (hk : 2 ≤ k) {co : ℕ → ℚ} {rhs : Expr} {roots : List (Expr × ℕ)}
    {rv : Expr → K} {ad : Bool} {diff : Expr} (hG : Given I n h B0 ρ f k co rhs inhom p roots rv ad sol sv diff)
    (hB : ∀ t, B0 t → B t) (hhB : B h) (hn : ¬ B n) (hh : ¬ B0 h) (hnh : h ≠ n)
    (hsimp : Keeps I n (fun _ => False) ρ f B O.simp) (hrw : KeepsX I n ρ f B (ICs f k) O.rw) (hexp : KeepsX I n ρ f B (ICs f k) O.expand)
    (hts : ∃ t ∈ decomposition O n inhom, t.2.2 ≠ .num 0) {a1 e : Expr}
    (hsol : solveLinear O n rhs inhom f k true a1 (some roots) (some (oldHigh O n h f co k ad sol diff inhom roots)) = some e) :
    Shape B (ICs f k) e ∧ IsSolution I n rhs ρ e f k := by
  rw [solveLinear, if_neg (by omega), if_pos rfl, Option.bind_some, solveConst] at hsol
  rw [if_pos (by simpa using hts), Option.some.injEq] at hsol
  subst hsol
  have hn0 : ¬ B0 n := fun h0 => hn (hB n h0)
  have up : ∀ {e : Expr}, Shape B0 (fun _ => False) e → Shape B (ICs f k) e := fun h1 => shape_mono (fun _ h2 => h2.elim) (shape_le hB h1)
  have upF : ∀ {e : Expr}, Shape B0 (fun _ => False) e → Shape B (fun _ => False) e := fun h1 => shape_le hB h1
  have hrs0 := shape_root roots hG.rootShape
  have hg0 : Shape B0 (fun _ => False) (gE n k ad sol diff roots) := by
    unfold gE
    split
    · exact shape_g2 n hrs0.1 hrs0.2 hG.diffShape
    · exact shape_findG n ad hG.solShape roots hG.rootShape
  have hnon : Shape B (fun _ => False) (nonHomE n h f k ad sol diff inhom roots) := by
    unfold nonHomE
    split
    · exact shape_sum2 hn hhB (upF hrs0.1) (upF hrs0.2) (upF hG.diffShape) (upF hG.inhomShape)
    · exact shape_conv hn hhB (upF (shape_findG n ad hG.solShape roots hG.rootShape)) (upF hG.inhomShape)
  have w1 : Shape B (ICs f k) (addE (termICE n f co k (gE n k ad sol diff roots)) (O.simp (nonHomE n h f k ad sol diff inhom roots))) :=
    shape_addE (shape_termIC hn co (up hg0)) (shape_mono (fun _ h2 => h2.elim) (hsimp.shape _ hnon))
  have w2 := hrw.shape _ w1
  refine ⟨hexp.shape _ w2, fun X hX N hN => ?_⟩
  have hs : Off n h ρ (update ρ n (N : K)) := off_n _ off_self
  have hz : update ρ n (N : K) n = ((N : ℕ) : K) := update_self _ _ _
  have hz' : update ρ n (N : K) n = ((N : ℤ) : K) := by rw [hz]; simp
  have hag : Agrees n (fun _ => False) ρ (update ρ n (N : K)) N := agrees_self n _ ρ N
  unfold oldHigh
  rw [hexp.val _ w2 X N hN, hrw.val _ w1 X N hN, eval_addE, hsimp.val _ (shape_hasX hnon) (shape_idx hn hnon) X _ N hN hag]
  set R : LinRec K := ⟨k, fun i => (co i : K), fun m => p m.toNat, f⟩ with hR
  have hx : Solves R fun m => X ((m.toNat : ℕ) : K) := solves_of_nat (x := fun M => X (M : K)) fun M hM => by
    rw [hX M hM, hG.lin X M hM]
  have hare : AreRoots R (roots.map fun r => (rv r.1, r.2)) := hG.are
  have hco : R.a R.k ≠ 0 := Rat.cast_ne_zero.mpr hG.last
  have hord : (roots.map fun r => r.2).sum = k := by
    have := Exact.order_eq hare
    rw [List.map_map] at this
    exact this
  have hcast : ((N : ℤ).toNat : ℕ) = N := Int.toNat_natCast N
  by_cases hc : (k = 2 && ad) = true
  · obtain ⟨hk2, had⟩ : k = 2 ∧ ad = true := by simpa using hc
    unfold gE nonHomE
    rw [if_pos hc, if_pos hc]
    have hlen : roots.length = 2 := by rw [← sum_ones roots (hG.distinct had), hord, hk2]
    obtain ⟨ra, rb, hab⟩ : ∃ ra rb, roots = [ra, rb] := by
      match roots, hlen with
      | [ra, rb], _ => exact ⟨ra, rb, rfl⟩
    have e1 : root1 roots = ra.1 := by rw [hab]; rfl
    have e2 : root2 roots = rb.1 := by rw [hab]; rfl
    have hva := hG.rootVal ra (by rw [hab]; simp)
    have hvb := hG.rootVal rb (by rw [hab]; simp)
    have hdv := hG.diffVal
    have hap := hG.apart had
    rw [e1, e2] at hdv hap hrs0 ⊢
    have hare2 : AreRoots R [(rv ra.1, 1), (rv rb.1, 1)] := by
      have := hare
      rw [hab, List.map_cons, List.map_cons, List.map_nil, hG.distinct had ra (by rw [hab]; simp), hG.distinct had rb (by rw [hab]; simp)] at this
      exact this
    have hg2 : Shape B0 (fun _ => False) (g2E n ra.1 rb.1 diff) := shape_g2 n hrs0.1 hrs0.2 hG.diffShape
    subst hk2
    rw [termIC_value (k := 2) hn0 hg2 (g2_value hva hvb hdv) co X R.p hs hz',
      sum2_value hstd hn0 hh hva hvb hdv hG.inhomShape hG.inhomVal (fun i => (co i : K)) X hs hz]
    have := Exact.C31_old_method_order2 R _ _ rfl hco hap hare2 _ hx N (by exact_mod_cast hN)
    rw [oldSolution2, hcast] at this
    exact this
  · unfold gE nonHomE
    rw [if_neg hc, if_neg hc]
    have hgs := shape_findG (S := fun _ => False) n ad hG.solShape roots hG.rootShape
    have hgv := findG_value ad hG.solVal roots hG.rootVal (fun had => by
      rw [rootsOrderE_eq (rv := rv), rootsOrder_sum, List.map_map]
      exact (sum_ones roots (hG.distinct had)).le)
    rw [termIC_value (k := k) hn0 hgs hgv co X R.p hs hz', conv_value (k := k) hstd hn0 hh hnh hgs hgv hG.inhomShape hG.inhomVal
      (fun i => (co i : K)) X hs hz]
    have := Exact.C31_old_method R _ ad sv (show 1 ≤ k by omega) hco hare (fun r hr => by
        obtain ⟨r', h1, rfl⟩ := List.mem_map.mp hr
        exact hG.mult r' h1)
      (fun had r hr => by
        obtain ⟨r', h1, rfl⟩ := List.mem_map.mp hr
        exact hG.distinct had r' h1) hG.system _ hx N (by exact_mod_cast hN)
    rw [Exact.oldSolution, hcast] at this
    exact this

end

end Purrs.OldMethod
