import Verif.Props.BoundsRefuted

/-!
# C69, C70, C71: the bounds for polynomial-logarithmic terms with positive coefficients and for homogeneous equations

Here nothing is left out: the bound is computed and it is right.
-/

set_option linter.unusedSectionVars false

namespace Purrs.Bounds

open Purrs Purrs.WeightedAvg Finset
open Function (update update_of_ne update_self)

/-! ## Specification -/

/-- `e` is written `c n^k`, in one of the forms that the library gives it. -/
inductive Mono (n : String) : ℚ → ℚ → Expr → Prop where
  | const (c : ℚ) : Mono n c 0 (.num c)
  | n : Mono n 1 1 (.sym n)
  | pow (k : ℚ) : 0 < k → Mono n 1 k (.pow (.sym n) (.num k))
  | cn (c : ℚ) : Mono n c 1 (.mul [.num c, .sym n])
  | nc (c : ℚ) : Mono n c 1 (.mul [.sym n, .num c])
  | cpow (c k : ℚ) : 0 < k → Mono n c k (.mul [.num c, .pow (.sym n) (.num k)])
  | powc (c k : ℚ) : 0 < k → Mono n c k (.mul [.pow (.sym n) (.num k), .num c])

/-- `e` is written `c n^k log(n)`. -/
inductive MonoLog (n : String) : ℚ → ℚ → Expr → Prop where
  | log : MonoLog n 1 0 (lnE (.sym n))
  | clog (c : ℚ) : MonoLog n c 0 (.mul [.num c, lnE (.sym n)])
  | logc (c : ℚ) : MonoLog n c 0 (.mul [lnE (.sym n), .num c])
  | nlog : MonoLog n 1 1 (.mul [.sym n, lnE (.sym n)])
  | cnlog (c : ℚ) : MonoLog n c 1 (.mul [.num c, .sym n, lnE (.sym n)])
  | powlog (k : ℚ) : 0 < k → MonoLog n 1 k (.mul [.pow (.sym n) (.num k), lnE (.sym n)])
  | cpowlog (c k : ℚ) : 0 < k → MonoLog n c k (.mul [.num c, .pow (.sym n) (.num k), lnE (.sym n)])

/-- The comparisons that the bound of `c n^k` needs are decided. -/
def Decided (cmp : Expr → Expr → Cmp) (a : ℚ) (b : ℕ) (c k : ℚ) : Prop :=
  cmp (.num c) (.num 0) = .greater ∧ cmp (.num a) (powE (.num b) (.num k)) ≠ .unknown

section
variable {ξ : ℝ → ℝ} {ρ : String → ℝ} {n : String} {cmp : Expr → Expr → Cmp} {a : ℚ} {b : ℕ} {P : ℕ → Prop} {t : Ty}
  {S : Sums} {c k : ℚ} {e g : Expr}

theorem decided_pos (hc : CmpOk ξ ρ n cmp) (h : Decided cmp a b c k) : 0 < c := by
  have := hc.2 (.num c) (.num 0) (by simp [has]) (by simp [has])
  rw [h.1] at this
  simp only [ev_num] at this
  exact_mod_cast this

theorem Mono.val (h : Mono n c k e) (N : ℕ) : val ξ ρ n e N = c * (N : ℝ) ^ (k : ℝ) := by
  cases h <;> simp [Bounds.val, eval, realInterp, mul_comm]

theorem MonoLog.val (h : MonoLog n c k e) (N : ℕ) : val ξ ρ n e N = c * (N : ℝ) ^ (k : ℝ) * Real.log N := by
  cases h <;> simp [Bounds.val, eval, realInterp, realFn, lnE, mul_assoc, mul_comm, mul_left_comm]

theorem ne_negE (hc : 0 < c) (h : Mono n c k e) : e ≠ negE (.sym n) := by
  rw [negE_n]
  cases h <;> simp
  · intro h; linarith

theorem Mono.pows (h : Mono n c k e) : powsOf n e = if k = 0 then [] else [k] := by
  cases h <;> simp [powsOf, nPow] <;> linarith

theorem Mono.logs (h : Mono n c k e) : logsOf n e = 0 := by
  cases h <;> simp [logsOf]

theorem MonoLog.pows (h : MonoLog n c k e) : powsOf n e = if k = 0 then [] else [k] := by
  cases h <;> simp [powsOf, nPow, lnE] <;> linarith

theorem MonoLog.logs (h : MonoLog n c k e) : logsOf n e = 1 := by
  cases h <;> simp [logsOf, lnE]

theorem Mono.k_nonneg (h : Mono n c k e) : 0 ≤ k := by cases h <;> linarith
theorem MonoLog.k_nonneg (h : MonoLog n c k e) : 0 ≤ k := by cases h <;> linarith

/-! ## Success -/

theorem powUpper_some (h : cmp (.num a) (powE (.num b) (.num k)) ≠ .unknown) : ∃ w, powUpper n cmp a b k = some w := by
  unfold powUpper
  cases hh : cmp (.num a) (powE (.num b) (.num k)) <;> simp_all

theorem powLogBound_some (h : cmp (.num a) (powE (.num b) (.num k)) ≠ .unknown) :
    ∃ w, powLogBound n cmp .upper a b k = some w := by
  unfold powLogBound
  cases hh : cmp (.num a) (powE (.num b) (.num k)) <;> simp_all

theorem powLower_some (hc : CmpOk ξ ρ n cmp) (h : cmp (.num a) (powE (.num b) (.num k)) ≠ .unknown)
    (h1 : 1 ≤ k → (b : ℝ) ^ ((k : ℝ) - 1) ≤ a ∧ (a : ℝ) ≤ (b : ℝ) ^ (k : ℝ)) : ∃ w, powLower n cmp a b k = some w := by
  unfold powLower
  by_cases h0 : k = 0
  · simp [h0]
  by_cases hk : 1 ≤ k
  · obtain ⟨h2, h3⟩ := h1 hk
    have c1 := cmp_pow (a := a) (k := k - 1) (b := b) hc
    have c2 := cmp_pow (a := a) (k := k) (b := b) hc
    push_cast at c1
    simp only [if_neg h0, if_pos hk]
    cases hh : cmp (.num a) (powE (.num b) (.num k)) with
    | greater => rw [hh] at c2; simp only at c2; linarith
    | unknown => exact absurd hh h
    | equal => simp only [reduceCtorEq, if_false, if_true]; split_ifs <;> simp
    | less => simp only [if_true]; split_ifs <;> simp
  · simp only [if_neg h0, if_neg hk]
    cases hh : cmp (.num a) (powE (.num b) (.num k)) <;> simp_all

theorem scaled_some (h : cmp (.num c) (.num 0) = .greater) {F : Ty → Option Expr} (hF : ∃ w, F t = some w) :
    ∃ w, scaled cmp (.num c) F t = some w := by
  obtain ⟨w, hw⟩ := hF
  exact ⟨mulE (.num c) w, by unfold scaled; rw [h]; simp [hw]⟩

theorem mono_some (hc0 : 0 < c) (h : Mono n c k e) (hd : cmp (.num c) (.num 0) = .greater)
    (hF : ∃ w, powBound n cmp t a b k = some w) : ∃ w, sharperPoly n cmp t a b e = some w := by
  unfold sharperPoly
  have hn := ne_negE hc0 h
  cases h with
  | const c => simpa [isCoeff] using scaled_some hd hF
  | n => simpa [isCoeff] using hF
  | pow k hk => simpa [isCoeff, has, hk, hn] using hF
  | cn c =>
    simp only [isCoeff, if_neg hn]
    simpa [polyMul, factorLoop, factorStep, asPow, isCoeff, mulE] using scaled_some hd hF
  | nc c =>
    simp only [isCoeff, if_neg hn]
    simpa [polyMul, factorLoop, factorStep, asPow, isCoeff, mulE] using scaled_some hd hF
  | cpow c k hk =>
    simp only [isCoeff, if_neg hn]
    simpa [polyMul, factorLoop, factorStep, asPow, isCoeff, mulE] using scaled_some hd hF
  | powc c k hk =>
    simp only [isCoeff, if_neg hn]
    simpa [polyMul, factorLoop, factorStep, asPow, isCoeff, mulE] using scaled_some hd hF

theorem monoLog_some (h : MonoLog n c k e) (hd : cmp (.num c) (.num 0) = .greater)
    (hF : ∃ w, powLogBound n cmp .upper a b k = some w) (hL : ∃ w, logBound n .upper a b = some w) :
    ∃ w, sharperNoPoly n cmp .upper a b e = some w := by
  unfold sharperNoPoly
  cases h with
  | log => simpa using hL
  | clog c => simpa [lnE, noPolyMul, factorLoop, factorStep, asPow, isCoeff, mulE] using scaled_some hd hL
  | logc c => simpa [lnE, noPolyMul, factorLoop, factorStep, asPow, isCoeff, mulE] using scaled_some hd hL
  | nlog => simpa [lnE, noPolyMul, factorLoop, factorStep, asPow, isCoeff, mulE] using scaled_some hd hF
  | cnlog c => simpa [lnE, noPolyMul, factorLoop, factorStep, asPow, isCoeff, mulE] using scaled_some hd hF
  | powlog k hk => simpa [lnE, noPolyMul, factorLoop, factorStep, asPow, isCoeff, mulE, hk.ne'] using scaled_some hd hF
  | cpowlog c k hk => simpa [lnE, noPolyMul, factorLoop, factorStep, asPow, isCoeff, mulE, hk.ne'] using scaled_some hd hF

/-! ## The bound of each part -/

theorem part_total (hc : CmpOk ξ ρ n cmp) (ha : 0 < a) (hb : 2 ≤ b) {poly : Bool} (he : e = .num 0 ∨
      ∀ x ∈ addends e, TermOk ξ ρ n a b t poly x ∧ ∃ w, sharper n cmp poly t a b x = some w) :
    ∃ w, partBound n cmp S poly 1 t a b e = some w ∧ Piece ξ ρ n a b (fun _ => True) t (val ξ ρ n e) w := by
  have hS0 : SumsOk ξ ρ n a b (fun _ => True) noSums := sums_none fun _ _ => rfl
  have key : ∀ x, TermOk ξ ρ n a b t poly x ∧ (∃ w, sharper n cmp poly t a b x = some w) →
      ∃ w, addendPart n cmp S poly 1 t a b x = some w ∧ Piece ξ ρ n a b (fun _ => True) t (val ξ ρ n x) w := by
    rintro x ⟨h1, w, hw⟩
    exact ⟨w, by simp [addendPart, hw], sharper_sound hc ha hb h1 hw⟩
  have key' : ∀ x, (x = .num 0 ∨ TermOk ξ ρ n a b t poly x ∧ ∃ w, sharper n cmp poly t a b x = some w) →
      ∃ w, singlePart n cmp S poly 1 t a b x = some w ∧ Piece ξ ρ n a b (fun _ => True) t (val ξ ρ n x) w := by
    intro x hx
    by_cases h0 : x = .num 0
    · subst h0
      refine ⟨.num 0, by simp [singlePart], ?_⟩
      refine Piece.congr hb (fun m _ => ?_) Piece.zero
      rw [val_num]; simp
    · obtain ⟨h1, w, hw⟩ := hx.resolve_left h0
      exact ⟨w, by simp [singlePart, hw, h0], sharper_sound hc ha hb h1 hw⟩
  unfold partBound
  split
  · rename_i l
    have he : ∀ x ∈ l, TermOk ξ ρ n a b t poly x ∧ ∃ w, sharper n cmp poly t a b x = some w := by
      rcases he with h | h
      · simp at h
      · exact h
    have hv : ∀ N, val ξ ρ n (.add l) N = (l.map fun f => val ξ ρ n f N).sum := by
      intro N; simp [Bounds.val, eval]
    suffices ∃ w, l.foldr (fun x acc => addO acc (addendPart n cmp S poly 1 t a b x)) (some (.num 0)) = some w ∧
        Piece ξ ρ n a b (fun _ => True) t (fun N => (l.map fun f => val ξ ρ n f N).sum) w by
      obtain ⟨w, h1, h2⟩ := this
      exact ⟨w, h1, Piece.congr hb (fun m _ => (hv m).symm) h2⟩
    clear hv
    rename_i h0
    clear h0
    induction l with
    | nil => exact ⟨.num 0, rfl, by simpa using Piece.zero⟩
    | cons x l ih =>
      obtain ⟨u, hu, hu'⟩ := ih fun y hy => he y (List.mem_cons_of_mem _ hy)
      obtain ⟨v, hv, hv'⟩ := key x (he x List.mem_cons_self)
      refine ⟨addE u v, ?_, ?_⟩
      · simp only [List.foldr_cons]
        rw [hu, hv]; rfl
      · refine Piece.congr hb (fun m _ => ?_) (hu'.add hv')
        rw [List.map_cons, List.sum_cons]; ring
  · rename_i hne
    apply key'
    rcases he with h | h
    · exact Or.inl h
    · right
      apply h
      cases e <;> simp_all [addends]

theorem approx_total (hc : CmpOk ξ ρ n cmp) (ha : 0 < a) (hb : 2 ≤ b) {p q : Expr} {c : ℕ} (hc1 : c ≤ 1)
    (hp : p = .num 0 ∨ ∀ x ∈ addends p, TermOk ξ ρ n a b t true x ∧ ∃ w, sharper n cmp true t a b x = some w)
    (hq : q = .num 0 ∨ ∀ x ∈ addends q, TermOk ξ ρ n a b t false x ∧ ∃ w, sharper n cmp false t a b x = some w)
    (hpar : hasParameters n g = false)
    (hdec : ∀ m : ℕ, 1 ≤ m → val ξ ρ n g m = val ξ ρ n p m + val ξ ρ n q m)
    (hsat : Satisfies ξ a b (val ξ ρ n g)) (hpos : ∀ i : ℕ, 1 ≤ i → i < b → 0 ≤ ξ i) :
    ∃ w, approximate n cmp S t (.num a) b g [(.num 1, p, q)] c = some w ∧
      ∀ N : ℕ, b ≤ N → t.bounds (val ξ ρ n w N) (ξ N) := by
  have hb1 : ¬ (b : ℚ) < 1 := by
    have : (2 : ℚ) ≤ b := by exact_mod_cast hb
    linarith
  have init : ∀ N : ℕ, b ≤ N → _ := fun N hN =>
    initialTerm_sound (ξ := ξ) (ρ := ρ) (n := n) (t := t) ha hb hc1 (show 1 ≤ N by omega) hpos
  unfold approximate
  simp only
  rw [if_pos ⟨ha, hb1, by simp, hpar⟩]
  by_cases hg : g = .num 0
  · rw [if_pos hg]
    refine ⟨_, rfl, fun N hN => ?_⟩
    have h3 := init N hN
    have h4 := satisfies_unroll hb hsat N (by omega)
    have h5 : unroll a b (val ξ ρ n g) N = 0 := by
      rw [hg]; unfold unroll; simp [val_num]
    rw [h4, h5, add_zero]
    have : val ξ ρ n (addE (.num 0) (initialTerm n t c a b)) N = val ξ ρ n (initialTerm n t c a b) N := by
      unfold val; rw [eval_addE, ev_num]; simp
    rw [this]
    exact h3
  · rw [if_neg hg]
    obtain ⟨u, hu, hu'⟩ := part_total (S := S) hc ha hb hp
    obtain ⟨v, hv, hv'⟩ := part_total (S := S) hc ha hb hq
    refine ⟨addE (addE (.num 0) (addE u v)) (initialTerm n t c a b), ?_, fun N hN => ?_⟩
    · simp [nonHomogeneous, termBound, hu, hv, addO]
    · have h3 := init N hN
      have h4 := satisfies_unroll hb hsat N (by omega)
      have h5 := Piece.congr hb (fun m hm => (hdec m hm).symm) (hu'.add hv') N hN trivial
      rw [h4]
      have e : val ξ ρ n (addE (addE (.num 0) (addE u v)) (initialTerm n t c a b)) N =
          val ξ ρ n (addE u v) N + val ξ ρ n (initialTerm n t c a b) N := by
        unfold val; rw [eval_addE, eval_addE, ev_num]; simp
      rw [e]
      cases t <;> simp only [Ty.bounds] at * <;> linarith

/-! ## The theorems -/

theorem mono_termOk (hc : CmpOk ξ ρ n cmp) (h : Mono n c k e) (hd : Decided cmp a b c k)
    (hl : t = .lower → LowerOk a b k) : TermOk ξ ρ n a b t true e := by
  have hpos := decided_pos hc hd
  refine ⟨?_, by rw [h.logs]; omega, ?_, ne_negE hpos h, by simp, ?_⟩
  · rw [h.pows]; split_ifs <;> simp
  · rw [h.pows]; intro q hq; have := h.k_nonneg
    split_ifs at hq with h0
    · simp at hq
    · simp at hq; subst hq; exact lt_of_le_of_ne this (Ne.symm h0)
  · cases t with
    | upper =>
      right; left
      refine ⟨rfl, fun m hm => ?_⟩
      rw [h.val]
      have : (0 : ℝ) < c := by exact_mod_cast hpos
      positivity
    | lower =>
      left
      rw [h.pows]; intro q hq
      split_ifs at hq with h0
      · simp at hq
      · simp at hq; subst hq; exact hl rfl

theorem monoLog_termOk (hc : CmpOk ξ ρ n cmp) (h : MonoLog n c k e) (hd : Decided cmp a b c k) :
    TermOk ξ ρ n a b .upper false e := by
  have hpos := decided_pos hc hd
  refine ⟨?_, by rw [h.logs], ?_, ?_, ?_, ?_⟩
  · rw [h.pows]; split_ifs <;> simp
  · rw [h.pows]; intro q hq; have := h.k_nonneg
    split_ifs at hq with h0
    · simp at hq
    · simp at hq; subst hq; exact lt_of_le_of_ne this (Ne.symm h0)
  · rw [negE_n]; cases h <;> simp [lnE]
  · intro _; right; rw [h.logs]; simp
  · right; left
    refine ⟨rfl, fun m hm => ?_⟩
    rw [h.val]
    have : (0 : ℝ) < c := by exact_mod_cast hpos
    have := Real.log_nonneg (show (1 : ℝ) ≤ m by exact_mod_cast hm)
    positivity

/-- **C69.** Let the inhomogeneous part of `x(n) = a x(n/b) + g(n)` be a sum of terms `c n^k` (`p`) and `c n^k log(n)`
(`q`) with positive coefficients.  Then, if the necessary numerical comparisons are decided, the upper bound is computed
and, at every `n ≥ b`, it is not smaller than the value of any function that satisfies the equation and has
non-negative initial conditions. -/
theorem C69_upper (n : String) (a : ℚ) (b : ℕ) (c : ℕ) (S : Sums) (cmp : Expr → Expr → Cmp) (ξ : ℝ → ℝ) (ρ : String → ℝ)
    (g p q : Expr) (hcmp : CmpOk ξ ρ n cmp) (ha : 0 < a) (hb : 2 ≤ b) (hc : c ≤ 1)
    (hp : p = .num 0 ∨ ∀ e ∈ addends p, ∃ c k, Mono n c k e ∧ Decided cmp a b c k)
    (hq : q = .num 0 ∨ ∀ e ∈ addends q, ∃ c k, MonoLog n c k e ∧ Decided cmp a b c k)
    (hpar : hasParameters n g = false)
    (hg : ∀ m : ℕ, 1 ≤ m → val ξ ρ n g m = val ξ ρ n p m + val ξ ρ n q m)
    (hsat : Satisfies ξ a b (val ξ ρ n g)) (hpos : ∀ i : ℕ, 1 ≤ i → i < b → 0 ≤ ξ i) :
    ∃ w, approximate n cmp S .upper (.num a) b g [(.num 1, p, q)] c = some w ∧ ∀ N : ℕ, b ≤ N → ξ N ≤ val ξ ρ n w N := by
  refine approx_total hcmp ha hb hc (hp.imp_right fun h e he => ?_) (hq.imp_right fun h e he => ?_) hpar hg hsat hpos
  · obtain ⟨c, k, hm, hd⟩ := h e he
    exact ⟨mono_termOk hcmp hm hd (by simp), mono_some (decided_pos hcmp hd) hm hd.1 (powUpper_some hd.2)⟩
  · obtain ⟨c, k, hm, hd⟩ := h e he
    refine ⟨monoLog_termOk hcmp hm hd, monoLog_some hm hd.1 (powLogBound_some hd.2) ?_⟩
    unfold logBound; simp only; split_ifs <;> simp

/-- The exponents for which the coefficient of the equation is in the range of the lower bound. -/
def InRange (a : ℝ) (b : ℕ) (k : ℝ) : Prop :=
  k = 0 ∨ (1 ≤ k ∧ (b : ℝ) ^ (k - 1) ≤ a ∧ a ≤ (b : ℝ) ^ k) ∨ (k < 1 ∧ (a ≤ 1 ∨ (b : ℝ) ^ k < a))

/-- **C70.** Let the inhomogeneous part of `x(n) = a x(n/b) + g(n)` be a sum of terms `c n^k` with positive coefficients
and exponents as in `InRange` (for natural exponents `k = 0` or `b^(k-1) ≤ a ≤ b^k`).  Then, if the necessary numerical
comparisons are decided, the lower bound is computed and, at every `n ≥ b`, it is not greater than the value of any
function that satisfies the equation and has non-negative initial conditions. -/
theorem C70_lower (n : String) (a : ℚ) (b : ℕ) (c : ℕ) (S : Sums) (cmp : Expr → Expr → Cmp) (ξ : ℝ → ℝ) (ρ : String → ℝ)
    (g : Expr) (hcmp : CmpOk ξ ρ n cmp) (ha : 0 < a) (hb : 2 ≤ b) (hc : c ≤ 1)
    (hp : ∀ e ∈ addends g, ∃ c k, Mono n c k e ∧ Decided cmp a b c k ∧ InRange a b k)
    (hpar : hasParameters n g = false)
    (hsat : Satisfies ξ a b (val ξ ρ n g)) (hpos : ∀ i : ℕ, 1 ≤ i → i < b → 0 ≤ ξ i) :
    ∃ w, approximate n cmp S .lower (.num a) b g [(.num 1, g, .num 0)] c = some w ∧
      ∀ N : ℕ, b ≤ N → val ξ ρ n w N ≤ ξ N := by
  refine approx_total hcmp ha hb hc (Or.inr fun e he => ?_) (Or.inl rfl) hpar (fun m _ => by rw [val_num]; simp) hsat hpos
  obtain ⟨c, k, hm, hd, hr⟩ := hp e he
  have hr' : LowerOk a b k := by
    rcases hr with h | ⟨h1, h2, h3⟩ | h
    · exact Or.inl h
    · exact Or.inr (Or.inl ⟨h1, h2⟩)
    · exact Or.inr (Or.inr h)
  refine ⟨mono_termOk hcmp hm hd fun _ => hr', mono_some (decided_pos hcmp hd) hm hd.1 (powLower_some hcmp hd.2 ?_)⟩
  intro hk
  have hk' : (1 : ℝ) ≤ k := by exact_mod_cast hk
  rcases hr with h | ⟨h1, h2, h3⟩ | ⟨h1, _⟩
  · linarith
  · exact ⟨h2, h3⟩
  · linarith

/-- **C71.** For the homogeneous equation `x(n) = a x(n/b)` both bounds are computed and they enclose, at every `n ≥ b`,
every function that satisfies the equation and has non-negative initial conditions. -/
theorem C71_homogeneous (n : String) (a : ℚ) (b : ℕ) (c : ℕ) (S : Sums) (cmp : Expr → Expr → Cmp) (ξ : ℝ → ℝ)
    (ρ : String → ℝ) (ds : List (Expr × Expr × Expr)) (ha : 0 < a) (hb : 2 ≤ b) (hc : c ≤ 1)
    (hsat : Satisfies ξ a b fun _ => 0) (hpos : ∀ i : ℕ, 1 ≤ i → i < b → 0 ≤ ξ i) :
    ∃ l u, approximate n cmp S .lower (.num a) b (.num 0) ds c = some l ∧
      approximate n cmp S .upper (.num a) b (.num 0) ds c = some u ∧
      ∀ N : ℕ, b ≤ N → val ξ ρ n l N ≤ ξ N ∧ ξ N ≤ val ξ ρ n u N := by
  have hz : val ξ ρ n (.num 0) = fun _ => (0 : ℝ) := by funext m; rw [val_num]; simp
  have h := fun t => approx_total (S := S) (t := t) (p := .num 0) (q := .num 0) (g := .num 0) (idealCmp_ok ξ ρ n) ha hb hc
    (Or.inl rfl) (Or.inl rfl) (by simp [hasParameters]) (fun m _ => by rw [hz]; simp) (by rw [hz]; exact hsat) hpos
  obtain ⟨l, hl, hl'⟩ := h .lower
  obtain ⟨u, hu, hu'⟩ := h .upper
  refine ⟨l, u, ?_, ?_, fun N hN => ⟨hl' N hN, hu' N hN⟩⟩
  · simpa [approximate] using hl
  · simpa [approximate] using hu

end

/-! ## Examples -/

/-- The hypotheses of `C69_upper` and of `C70_lower` are met by `x(n) = 2 x(n/2) + 3 n + 5`, for every `x(1) ≥ 0`. -/
theorem C70_nonvacuous (x1 : ℝ) (hx : 0 ≤ x1) : ∃ ξ : ℝ → ℝ,
    (∀ e ∈ addends (.add [.mul [.num 3, .sym "n"], .num 5]), ∃ c k, Mono "n" c k e ∧
      Decided (idealCmp ξ fun _ => 0) 2 2 c k ∧ InRange ((2 : ℚ) : ℝ) 2 k) ∧
    CmpOk ξ (fun _ => 0) "n" (idealCmp ξ fun _ => 0) ∧
    hasParameters "n" (.add [.mul [.num 3, .sym "n"], .num 5]) = false ∧
    Satisfies ξ (2 : ℚ) 2 (val ξ (fun _ => 0) "n" (.add [.mul [.num 3, .sym "n"], .num 5])) ∧
    (∀ i : ℕ, 1 ≤ i → i < 2 → 0 ≤ ξ i) ∧ ξ 1 = x1 := by
  obtain ⟨ξ, h1, h2⟩ := exists_solution 2 (le_refl 2) (fun m => 3 * (m : ℝ) + 5) (fun _ => x1)
  have hx1 : ξ 1 = x1 := by simpa using h2 1 le_rfl (by norm_num)
  have pos : ∀ c : ℚ, 0 < c → idealCmp ξ (fun _ => 0) (.num c) (.num 0) = .greater := fun c hc =>
    idealCmp_greater (by simp only [ev_num]; exact_mod_cast hc)
  have dec : ∀ x y, idealCmp ξ (fun _ => 0) x y ≠ .unknown := by
    intro x y; unfold idealCmp; split_ifs <;> simp
  refine ⟨ξ, ?_, idealCmp_ok _ _ _, by simp [hasParameters], ?_, ?_, hx1⟩
  · intro e he
    simp only [addends, List.mem_cons, List.not_mem_nil, or_false] at he
    rcases he with rfl | rfl
    · refine ⟨3, 1, .cn 3, ⟨pos _ (by norm_num), dec _ _⟩, Or.inr (Or.inl ?_)⟩
      norm_num
    · exact ⟨5, 0, .const 5, ⟨pos _ (by norm_num), dec _ _⟩, Or.inl (by norm_num)⟩
  · have hv : val ξ (fun _ => 0) "n" (.add [.mul [.num 3, .sym "n"], .num 5]) = fun m : ℕ => 3 * (m : ℝ) + 5 := by
      funext m; simp [val, eval]
    rw [hv]
    simpa using h1
  · intro i hi hi2
    have : i = 1 := by omega
    subst this
    simpa [hx1] using hx

end Purrs.Bounds
