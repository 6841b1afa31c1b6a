import Verif.Props.SolveLinear

/-!
# The linear solver finds the solution whenever `lsolve` solves the solvable systems (C147)
-/

set_option linter.unusedSectionVars false

namespace Purrs.SolveLin

open Function (update update_of_ne update_self)
open OrderRed (withX eval_x eval_noX SolvesAt IsSolution idxNe)
open OnIC (Shape shape_hasX)
open WeightedAvg (shiftN)
open Verify (xAt xDec subX xOut)
open Polynomial Purrs.Exact

variable {K : Type} [Field K] [CharZero K] {I : Interp K}

/-! ### Specification -/

/-- `lsolve` solves the equations `eqs` for the `m` unknowns of the `j`-th system, if they can be solved: it returns something if there is a solution for
all initial conditions, and every solution has the values returned. -/
def CompleteFor (I : Interp K) (O : Ops) (n : String) (ρ : String → K) (eqs : List (Expr × Expr)) (m j : ℕ) : Prop :=
  (∀ X : K → K, ∃ σ, Same n (Unknown O) ρ σ ∧ Sat I X σ eqs) → ∃ vals, O.lsolve eqs ((List.range m).map (O.unknown j)) = some vals ∧
    ∀ (X : K → K) (σ : String → K), Same n (Unknown O) ρ σ → Sat I X σ eqs → ∀ i < m, σ (O.unknown j i) = eval (withX I X) σ (vals.getD i (.num 0))

/-- What is assumed of one term: the polynomial whose coefficients are the equations is recognised and `lsolve` solves the equations if they can be
solved, or the sum of the polynomial is used instead. -/
structure TermKnown (I : Interp K) (O : Ops) (n : String) (B : String → Prop) (ρ : String → K) (f k : ℕ) (homo : Expr) (mult : ℕ)
    (t : Expr × Expr × Expr) (P : K[X]) : Prop where
  sum : t.1 = .num 1 → homo = xDec n 1 → Shape B (fun _ => False) (O.sumPoly t.2.1) ∧
    Denotes I n (Unknown O) ρ f (O.sumPoly t.2.1) fun N => ∑ i ∈ Finset.range (N + 1), P.eval (i : K)
  recognised : ¬ (t.1 = .num 1 ∧ homo = xDec n 1) → ∀ j, Recognised I O n B ρ (f + k)
    (diffE O n homo k t.2.1 t.1 (ansatz n (O.unknown j) (O.degree t.2.1 + mult) t.1))
  complete : ¬ (t.1 = .num 1 ∧ homo = xDec n 1) → ∀ j, CompleteFor I O n ρ (specialSystem O (O.degree t.2.1 + mult)
    (diffE O n homo k t.2.1 t.1 (ansatz n (O.unknown j) (O.degree t.2.1 + mult) t.1))) (O.degree t.2.1 + mult + 1) j

/-! ### Proofs -/

theorem removed_eq (u : ℕ → String) (sol : List Expr) {m : ℕ} (hm : m ≤ sol.length)
    (h : ∀ i < sol.length, sol.getD i (.num 0) = .sym (u i) ↔ i < m) : removed u sol = m := by
  have hz : sol.zipIdx = (List.range sol.length).map fun i => (sol.getD i (.num 0), i) := by
    refine List.ext_getElem (by simp) fun i h1 h2 => ?_
    have : i < sol.length := by simpa using h1
    simp [this]
  have hcount : ∀ L : ℕ, ((List.range L).filter fun i => decide (i < m)).length = min m L := by
    intro L
    induction L with
    | zero => simp
    | succ L ih =>
      rw [List.range_succ, List.filter_append, List.length_append, ih]
      by_cases hL : L < m
      · simp [hL]; omega
      · simp [hL]; omega
  unfold removed
  rw [hz, List.filter_map, List.length_map]
  have : (List.range sol.length).filter ((fun p : Expr × ℕ => decide (p.1 = .sym (u p.2))) ∘ fun i => (sol.getD i (.num 0), i))
      = (List.range sol.length).filter fun i => decide (i < m) := by
    refine List.filter_congr fun i hi => ?_
    rw [List.mem_range] at hi
    simp only [Function.comp_apply]
    exact decide_eq_decide.mpr (h i hi)
  rw [this, hcount]
  omega

section
variable {O : Ops} {n : String} {B : String → Prop} {ρ : String → K} {f k : ℕ}

/-- For every term a special solution is found: the equations have a solution, and as many coefficients as expected are left undetermined. -/
theorem special_complete [DecidableEq K] (hO : OpsOk I O n B ρ f k) {a p : ℕ → K} {rhs inhom : Expr}
    (hR : RecIs I O n B ρ f k rhs inhom a p) {t : Expr × Expr × Expr} {b : K} {P : K[X]} (ht : TermIs I O n B ρ f t b P) {rs : List (K × ℕ)}
    (hr : AreRoots (⟨k, a, fun _ => 0, f⟩ : LinRec K) rs) (hnd : (rs.map Prod.fst).Nodup) (j : ℕ) {mult : ℕ} (hmult : mult = baseMult rs b)
    (hrec : Recognised I O n B ρ (f + k) (diffE O n (O.auto (subE rhs inhom)) k t.2.1 t.1 (ansatz n (O.unknown j) (O.degree t.2.1 + mult) t.1)))
    (hL : CompleteFor I O n ρ (specialSystem O (O.degree t.2.1 + mult)
      (diffE O n (O.auto (subE rhs inhom)) k t.2.1 t.1 (ansatz n (O.unknown j) (O.degree t.2.1 + mult) t.1))) (O.degree t.2.1 + mult + 1) j) :
    ∃ sol, O.lsolve (specialSystem O (O.degree t.2.1 + mult)
        (diffE O n (O.auto (subE rhs inhom)) k t.2.1 t.1 (ansatz n (O.unknown j) (O.degree t.2.1 + mult) t.1)))
        ((List.range (O.degree t.2.1 + mult + 1)).map (O.unknown j)) = some sol ∧ removed (O.unknown j) sol = mult ∧
      ∀ i < O.degree t.2.1 + mult + 1, sol.getD i (.num 0) = .sym (O.unknown j i) ↔ i < mult := by
  set u := O.unknown j with hu
  set deg := O.degree t.2.1 + mult with hdeg
  set diff := diffE O n (O.auto (subE rhs inhom)) k t.2.1 t.1 (ansatz n u deg t.1) with hdiff
  have hinj : ∀ i i', u i = u i' → i = i' := hO.inj j
  have heqs : ∀ p ∈ specialSystem O deg diff, Shape B (fun _ => False) p.1 ∧ Shape B (fun _ => False) p.2 ∧ Ignores I (fun t => t = n) p.1 ∧
      Ignores I (fun t => t = n) p.2 := by
    intro p hp
    rw [specialSystem, List.mem_reverse, List.mem_map] at hp
    obtain ⟨i, -, rfl⟩ := hp
    exact ⟨hrec.shape i, by simp [Shape], hrec.free i, fun X σ τ _ => by simp [eval]⟩
  have hsep := special_separate hO hR ht hr hnd j hmult hrec
  have hiff := fun (X : K → K) {σ : String → K} (hσ : Same n (Unknown O) ρ σ) => system_iff hO hR ht j mult hrec X hσ
  obtain ⟨c, hc⟩ := C63_special_solvable (⟨k, a, fun _ => 0, f⟩ : LinRec K) rs hr hnd P b ht.ne
  rw [← hmult] at hc
  have hsame : Same n (Unknown O) ρ (setUnknowns u (deg + 1) c ρ) :=
    fun t _ h2 => (setUnknowns_spec hinj (deg + 1) c ρ).1 t fun i _ e => h2 ⟨j, i, e⟩
  have hsat : ∀ X : K → K, Sat I X (setUnknowns u (deg + 1) c ρ) (specialSystem O deg diff) := by
    intro X
    rw [hiff X hsame, specialSolved_iff]
    rw [specialSolved_iff] at hc
    rw [← ht.degree] at hc ⊢
    rw [← hc]
    congr 1
    unfold specialPoly
    refine Finset.sum_congr rfl fun i hi => ?_
    dsimp only
    rw [(setUnknowns_spec hinj (deg + 1) c ρ).2 i (by simpa using hi)]
  obtain ⟨sol, h1, h2⟩ := hL fun X => ⟨_, hsame, hsat X⟩
  have hS := hO.lsolve _ _ _ j _ (.inl rfl) h1 heqs hsep
  have hfree := fun {c : ℕ → K} (hc : SpecialSolved (⟨k, a, fun _ => 0, f⟩ : LinRec K) P b mult c) (c' : ℕ → K) =>
    hmult ▸ C147_undetermined_coefficients (⟨k, a, fun _ => 0, f⟩ : LinRec K) rs hr hnd P b ht.ne (hmult ▸ hc) c'
  -- a solution in which one of the unknowns is changed
  set σ := setUnknowns u (deg + 1) c ρ with hσ
  have hch : ∀ i, Same n (Unknown O) ρ (update σ (u i) (σ (u i) + 1)) := fun i => hsame.update j i _
  have hwhich : ∀ i < deg + 1, sol.getD i (.num 0) = .sym (u i) ↔ i < mult := by
    intro i hi
    constructor
    · intro hs
      by_contra hlt
      have hall : Sat I (fun _ => 0) (update σ (u i) (σ (u i) + 1)) (specialSystem O deg diff) := by
        refine hS.sat _ _ (hch i) fun i' hi' => ?_
        by_cases e : i' = i
        · subst e; exact .inl hs
        rcases hS.each i' hi' with h | h
        · exact .inl h
        · refine .inr ?_
          rw [update_of_ne fun e' => e (hinj _ _ e'), h.2.indep (V := fun t => B t ∨ t = n ∨ Unknown O t) (.inr (.inr ⟨j, i, rfl⟩))]
          exact h2 _ _ hsame (hsat _) i' hi'
      have e1 := (hiff _ (hch i)).mp hall
      have e2 := (hiff _ hsame).mp (hsat fun _ => 0)
      have := (hfree e2 _).mp e1 i (by omega) (by rw [← ht.degree]; omega)
      rw [← hu, update_self] at this
      exact one_ne_zero (add_eq_left.mp this)
    · intro hlt
      rcases hS.each i hi with h | h
      · exact h
      exfalso
      have hall : Sat I (fun _ => 0) (update σ (u i) (σ (u i) + 1)) (specialSystem O deg diff) := by
        rw [hiff _ (hch i), update_unknown hO]
        exact (hfree ((hiff _ hsame).mp (hsat fun _ => 0)) _).mpr fun i' h3 _ => update_of_ne (by omega) _ _
      have e1 := h2 _ _ (hch i) hall i hi
      have e2 := h2 _ _ hsame (hsat fun _ => 0) i hi
      rw [h.2.indep (V := fun t => B t ∨ t = n ∨ Unknown O t) (.inr (.inr ⟨j, i, rfl⟩)), ← e2, ← hu, update_self] at e1
      exact one_ne_zero (add_eq_left.mp e1)
  refine ⟨sol, h1, removed_eq u sol ?_ ?_, hwhich⟩
  · rw [hS.len]; omega
  · intro i hi
    rw [hS.len] at hi
    exact hwhich i hi

theorem specialSum_complete [DecidableEq K] (hO : OpsOk I O n B ρ f k) {a p : ℕ → K} {rhs inhom : Expr}
    (hR : RecIs I O n B ρ f k rhs inhom a p) {roots : List (Expr × ℕ)} {rv : Expr → K} (hroots : RootsAre I O n B ρ f k a roots rv)
    (b : Expr × Expr × Expr → K) (P : Expr × Expr × Expr → K[X]) :
    ∀ (ts : List (Expr × Expr × Expr)) (j : ℕ) (sol : Expr), (∀ t ∈ ts, TermIs I O n B ρ f t (b t) (P t)) →
    (∀ t ∈ ts, ∀ r ∈ roots, O.rw r.1 = t.1 ↔ rv r.1 = b t) →
    (∀ t ∈ ts, TermKnown I O n B ρ f k (O.auto (subE rhs inhom)) (multOf O roots t.1) t (P t)) →
    ∃ s, specialSum O n (O.auto (subE rhs inhom)) k roots j ts sol = some s := by
  intro ts
  induction ts with
  | nil => intro j sol _ _ _; exact ⟨sol, rfl⟩
  | cons t ts ih =>
    intro j sol ht hm hs
    have h1 : ∃ s, special O n (O.unknown (j + 1)) (O.auto (subE rhs inhom)) k t.2.1 t.1 (multOf O roots t.1) = some s := by
      unfold special
      by_cases hfast : t.1 = .num 1 ∧ O.auto (subE rhs inhom) = xDec n 1
      · rw [if_pos hfast]; exact ⟨_, rfl⟩
      · rw [if_neg hfast]
        obtain ⟨sol', e1, e2, -⟩ := special_complete hO hR (ht t (by simp)) hroots.are hroots.nodup (j + 1) (multOf_eq (hm t (by simp)))
          ((hs t (by simp)).recognised hfast (j + 1)) ((hs t (by simp)).complete hfast (j + 1))
        dsimp only
        rw [e1]
        dsimp only
        rw [if_pos e2]
        exact ⟨_, rfl⟩
    obtain ⟨s, hs1⟩ := h1
    obtain ⟨s', hs2⟩ := ih (j + 1) (addE sol s) (fun t' h' => ht t' (by simp [h'])) (fun t' h' => hm t' (by simp [h'])) fun t' h' => hs t' (by simp [h'])
    exact ⟨s', by rw [specialSum, hs1, Option.bind_some, hs2]⟩

/-- **C147**.  For every linear recurrence with constant coefficients whose inhomogeneous term is a sum of polynomials times exponentials the solver finds
an expression, and the expression is the solution, if the roots of the characteristic equation have been found with their multiplicities and `lsolve`
solves the systems given to it that have a solution: the number of undetermined coefficients is always the one that is asserted. -/
theorem C147_complete [DecidableEq K] (hO : OpsOk I O n B ρ f k) (hk : 1 ≤ k) {a p : ℕ → K} (ha : a k ≠ 0)
    {rhs inhom : Expr} (hR : RecIs I O n B ρ f k rhs inhom a p) {a1 : Expr} (ha1 : k = 1 → Denotes I n (Unknown O) ρ f a1 fun _ => a 1)
    (hsa : Shape B (fun _ => False) a1) {roots : List (Expr × ℕ)} {rv : Expr → K} (hroots : RootsAre I O n B ρ f k a roots rv)
    {b : Expr × Expr × Expr → K} {P : Expr × Expr × Expr → K[X]}
    (ht : ∀ t ∈ decomposition O n inhom, TermIs I O n B ρ f t (b t) (P t))
    (hm : ∀ t ∈ decomposition O n inhom, ∀ r ∈ roots, O.rw r.1 = t.1 ↔ rv r.1 = b t)
    (hts : ∀ t ∈ decomposition O n inhom, TermKnown I O n B ρ f k (O.auto (subE rhs inhom)) (multOf O roots t.1) t (P t))
    (hL : k ≠ 1 → ∀ s, specialSum O n (O.auto (subE rhs inhom)) k roots 0 (decomposition O n inhom) (.num 0) = some s →
      CompleteFor I O n ρ (constantsSystem n f k (generalE n (O.unknown 0) roots 0 (O.simp s))) k 0)
    (hz : ∀ t ∈ decomposition O n inhom, t.2.2 = .num 0) (old : Option Expr) :
    ∃ e, solveLinear O n rhs inhom f k true a1 (some roots) old = some e ∧ Shape B (ICs f k) e ∧ IsSolution I n rhs ρ e f k := by
  have hts' : ∀ t ∈ decomposition O n inhom, TermSolved I O n B ρ f k (O.auto (subE rhs inhom)) (multOf O roots t.1) t (P t) := by
    intro t h
    refine ⟨(hts t h).sum, (hts t h).recognised, fun hf j => ?_⟩
    obtain ⟨sol, e1, -⟩ := special_complete hO hR (ht t h) hroots.are hroots.nodup j (multOf_eq (hm t h)) ((hts t h).recognised hf j) ((hts t h).complete hf j)
    rw [e1]; rfl
  suffices h : ∃ e, solveLinear O n rhs inhom f k true a1 (some roots) old = some e by
    obtain ⟨e, he⟩ := h
    exact ⟨e, he, C145_constant_coefficients hO hk ha hR ha1 hsa hroots ht hm hts' hz he⟩
  rw [solveLinear, if_neg (by omega), if_pos rfl, Option.bind_some, solveConst, if_neg (by simpa using hz), newMethod]
  obtain ⟨s, hs⟩ := specialSum_complete hO hR hroots b P _ 0 (.num 0) ht hm hts
  rw [hs, Option.bind_some]
  dsimp only
  by_cases hk1 : k = 1
  · rw [if_pos hk1]; exact ⟨_, rfl⟩
  rw [if_neg hk1]
  obtain ⟨g1, s', g2, -⟩ := specialSum_spec hO hk hR hroots b P _ 0 (.num 0) (fun _ => 0) (fun _ => 0) ht hm hts' (by simp [Shape])
    (fun X σ N _ _ => by simp [eval]) (by simp) s hs
  have q1 : Shape B (fun _ => False) (O.simp s) := hO.simp.shape _ g1
  have q2 : Denotes I n (Unknown O) ρ f (O.simp s) s' := fun X σ N hN hσ => by
    rw [hO.simp.val _ (shape_hasX g1) (shape_idx hO.nB g1) X σ N hN hσ, g2 X σ N hN hσ]
  have hnum : (roots.map Prod.snd).sum = k := by
    have := order_eq hroots.are
    rw [List.map_map] at this
    exact this
  have hinj : ∀ i i', O.unknown 0 i = O.unknown 0 i' → i = i' := hO.inj 0
  have hpos : ∀ r ∈ roots.map (fun r => (rv r.1, r.2)), 1 ≤ r.2 := by
    intro r hr
    obtain ⟨r', h', rfl⟩ := List.mem_map.mp hr
    exact hroots.pos r' h'
  obtain ⟨vals, hv, -⟩ := hL hk1 s hs fun X => by
      classical
      obtain ⟨c, hc⟩ := C63_constants_solvable (⟨k, a, fun _ => 0, f⟩ : LinRec K) _ hk ha hroots.are hpos hroots.nodup
        (fun m => s' m.toNat) fun m => X ((m.toNat : ℕ) : K)
      have hsame : Same n (Unknown O) ρ (fun t => if h : ∃ i, t = O.unknown 0 i then c h.choose else ρ t) := by
        intro t _ h2
        exact dif_neg fun ⟨i, e⟩ => h2 ⟨0, i, e⟩
      refine ⟨_, hsame, ?_⟩
      rw [constants_iff hO hroots q1 q2 X hsame]
      have : (fun i => if h : ∃ i', O.unknown 0 i = O.unknown 0 i' then c h.choose else ρ (O.unknown 0 i)) = c := by
        funext i
        have h : ∃ i', O.unknown 0 i = O.unknown 0 i' := ⟨i, rfl⟩
        rw [dif_pos h, ← hinj _ _ h.choose_spec]
      rw [this]
      exact hc
  unfold constants
  dsimp only
  rw [hnum, hv]
  exact ⟨_, rfl⟩

end

end Purrs.SolveLin
