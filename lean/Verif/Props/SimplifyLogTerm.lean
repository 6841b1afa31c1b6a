import Verif.Props.SimplifyLog

/-!
# The simplification of logarithms ends (C95)
-/

namespace Purrs.SimplifyLog

open SimplifyPow (realBase splitExp returnPower powFactor powMul simplifyPowers eraseFactor root realBase_root root_not_pow root_root)

/-! ## Specification: the inner calls -/

/-- The inner calls of `logarithm_of_product`. -/
def logCalls (a : Expr) : List Expr :=
  match a with
  | .mul l => (l.filter fun f => match f with | .pow _ _ => true | .num _ => true | _ => false).map lg
  | _ => []

/-- The new base and exponent in `prepare_simpl_power_in_logarithm`. -/
def prepared (O : Ops) (n : String) (b x : Expr) : Expr × Expr := firstProp n b (expSimpl (fun a => elem O n id a false) x)

/-- The expressions for which `simplify_logarithm_in_expanded_ex` calls itself when it is called with the given expression. -/
def calls (O : Ops) (n : String) (pfuel : ℕ) : Expr → List Expr
  | .add l => l
  | .mul l => factors (quotientOfLogs O l)
  | .pow b x =>
    match shortcut pfuel (prepared O n b x).1 (prepared O n b x).2 with
    | some _ => []
    | none => [(prepared O n b x).1, (prepared O n b x).2]
  | .fn .log [a] => logCalls (elemArg O n a)
  | .fn _ l => l
  | .binder _ i lo up body => [i, lo, up, body]
  | _ => []

/-! ## These are the inner calls -/

theorem foldr_congr {f g : Expr → Expr} (op : Expr → Expr → Expr) (z : Expr) {l : List Expr} (h : ∀ a ∈ l, f a = g a) :
    l.foldr (fun a acc => op acc (f a)) z = l.foldr (fun a acc => op acc (g a)) z := by
  induction l with
  | nil => rfl
  | cons a l ih =>
    rw [List.foldr_cons, List.foldr_cons, ih fun b hb => h b (by simp [hb]), h a (by simp)]

theorem elem_false_indep (O : Ops) (n : String) (f g : Expr → Expr) (a : Expr) : elem O n f a false = elem O n g a false := by
  unfold elem
  split <;> rfl

theorem elem_true_congr (O : Ops) (n : String) {f g : Expr → Expr} {a : Expr} (h : ∀ b ∈ logCalls (elemArg O n a), f b = g b) :
    elem O n f a true = elem O n g a true := by
  unfold elem
  generalize elemArg O n a = a' at h ⊢
  split
  · rfl
  · rfl
  · rename_i l
    rw [if_pos rfl, if_pos rfl]
    refine foldr_congr addE (.num 0) fun c hc => ?_
    unfold logFactor
    split
    · exact h _ (List.mem_map.mpr ⟨_, List.mem_filter.mpr ⟨hc, rfl⟩, rfl⟩)
    · exact h _ (List.mem_map.mpr ⟨_, List.mem_filter.mpr ⟨hc, rfl⟩, rfl⟩)
    · rfl
  · rfl

/-- The result of a call depends only on the results of the calls in `calls`. -/
theorem step_congr (O : Ops) (n : String) (pfuel : ℕ) {f g : Expr → Expr} {e : Expr} (h : ∀ a ∈ calls O n pfuel e, f a = g a) :
    step O n pfuel f e = step O n pfuel g e := by
  unfold step
  split
  · exact foldr_congr addE (.num 0) h
  · rename_i l
    rw [calls] at h
    generalize quotientOfLogs O l = q at h ⊢
    split
    · exact foldr_congr mulE (.num 1) fun a ha => h a (by simpa [factors] using ha)
    · rename_i hne
      have : factors q = [q] := by
        cases q with
        | mul m => exact absurd rfl (hne m)
        | _ => rfl
      exact h q (by rw [this]; simp)
  · rename_i b x
    rw [calls] at h
    have e1 : ∀ f : Expr → Expr, firstProp n b (expSimpl (fun a => elem O n f a false) x) = prepared O n b x := by
      intro f
      rw [prepared, show (fun a => elem O n f a false) = fun a => elem O n id a false from funext fun a => elem_false_indep O n f id a]
    unfold prepare
    simp only [e1]
    cases hs : shortcut pfuel (prepared O n b x).1 (prepared O n b x).2 with
    | some r => rfl
    | none =>
      rw [hs] at h
      simp only
      rw [h _ (by simp), h (prepared O n b x).2 (by simp)]
  · exact elem_true_congr O n h
  · rename_i k l hne
    congr 1
    refine List.map_congr_left fun a ha => h a ?_
    have hc : calls O n pfuel (.fn k l) = l := by
      rw [calls]
      exact hne
    rw [hc]
    exact ha
  · rw [calls] at h
    rw [h _ (by simp), h _ (by simp), h _ (by simp), h _ (by simp)]
  · rfl

/-! ## Logarithms -/

/-- `a` is an inner call of `b`. -/
def Inner (O : Ops) (n : String) (pfuel : ℕ) (a b : Expr) : Prop := a ∈ calls O n pfuel b

variable {O : Ops} {n : String} {pfuel : ℕ}

theorem acc_num (q : ℚ) : Acc (Inner O n pfuel) (.num q) := ⟨_, fun a h => by simp [Inner, calls] at h⟩

theorem size_mem {l : List Expr} {a : Expr} (h : a ∈ l) : sizeOf a < sizeOf (Expr.mul l) := by
  have := List.sizeOf_lt_of_mem h
  simp only [Expr.mul.sizeOf_spec]
  omega

theorem size_root (e : Expr) : sizeOf (root e) ≤ sizeOf e := by
  induction e using Expr.ind with
  | pow b x ih _ =>
    rw [root]
    simp only [Expr.pow.sizeOf_spec]
    omega
  | _ => simp [root]

theorem root_powE {a x c : Expr} (h : isNum (root a) = true ∨ root a = c) : isNum (root (powE a x)) = true ∨ root (powE a x) = c := by
  rcases powE_cases a x with ⟨p, hp⟩ | ⟨hp, _⟩ | ⟨hp, _⟩
  · rw [hp]; left; simp [root, isNum]
  · rw [hp]; exact h
  · rw [hp, root]; exact h

theorem root_returnPower (n : String) (f : Bool) (b u v : Expr) (input : Bool) :
    isNum (root (returnPower n f b u v input)) = true ∨ root (returnPower n f b u v input) = root b := by
  have h0 : isNum (root b) = true ∨ root b = root b := Or.inr rfl
  unfold returnPower
  split
  · split
    · exact root_powE (root_powE h0)
    · exact root_powE h0
  · split
    · exact root_powE (root_powE (root_powE h0))
    · exact root_powE (root_powE h0)

theorem factors_mulE' {a b f : Expr} (h : f ∈ factors (mulE a b)) : (∃ q, f = .num q) ∨ f ∈ factors a ∨ f ∈ factors b := by
  revert h
  cases a <;> cases b <;> simp only [mulE] <;> (try split) <;> (try split) <;>
    simp only [factors, List.mem_cons, List.mem_append, List.not_mem_nil, or_false] <;>
    first | tauto | (rintro rfl; exact Or.inl ⟨_, rfl⟩)

theorem factors_mulE {a b f : Expr} (h : f ∈ factors (mulE a b)) : isNum f = true ∨ f ∈ factors a ∨ f ∈ factors b := by
  rcases factors_mulE' h with ⟨q, rfl⟩ | h
  · exact Or.inl rfl
  · exact Or.inr h

theorem factors_foldl {g : Expr → Expr} {l : List Expr} {z f : Expr} (h : f ∈ factors (l.foldl (fun acc a => mulE acc (g a)) z)) :
    isNum f = true ∨ f ∈ factors z ∨ ∃ a ∈ l, f ∈ factors (g a) := by
  induction l generalizing z with
  | nil => exact Or.inr (Or.inl h)
  | cons a l ih =>
    rcases ih h with h | h | ⟨b, hb, h⟩
    · exact Or.inl h
    · rcases factors_mulE h with h | h | h
      · exact Or.inl h
      · exact Or.inr (Or.inl h)
      · exact Or.inr (Or.inr ⟨a, by simp, h⟩)
    · exact Or.inr (Or.inr ⟨b, by simp [hb], h⟩)

theorem factors_foldr {g : Expr → Expr} {l : List Expr} {z f : Expr} (h : f ∈ factors (l.foldr (fun a acc => mulE acc (g a)) z)) :
    isNum f = true ∨ f ∈ factors z ∨ ∃ a ∈ l, f ∈ factors (g a) := by
  induction l with
  | nil => exact Or.inr (Or.inl h)
  | cons a l ih =>
    rw [List.foldr_cons] at h
    rcases factors_mulE h with h | h | h
    · exact Or.inl h
    · rcases ih h with h | h | ⟨b, hb, h⟩
      · exact Or.inl h
      · exact Or.inr (Or.inl h)
      · exact Or.inr (Or.inr ⟨b, by simp [hb], h⟩)
    · exact Or.inr (Or.inr ⟨a, by simp, h⟩)

theorem factors_size {e f : Expr} (h : f ∈ factors e) : sizeOf f ≤ sizeOf e := by
  cases e with
  | mul l => exact (size_mem (by simpa [factors] using h)).le
  | _ =>
    simp only [factors, List.mem_singleton] at h
    rw [h]

theorem root_mul (m : List Expr) : root (.mul m) = .mul m := by simp [root]

theorem isNum_eq {e : Expr} (h : isNum e = true) : ∃ q, e = .num q := by
  cases e with
  | num q => exact ⟨q, rfl⟩
  | _ => simp [isNum] at h

/-- A factor of a rewritten power has a smaller base, or it is a power of a number. -/
theorem root_factor {e b f : Expr} (he : isNum (root e) = true ∨ root e = b) (h : f ∈ factors e) :
    isNum (root f) = true ∨ sizeOf (root f) ≤ sizeOf b := by
  cases e with
  | mul m =>
    rcases he with h1 | h1
    · simp [root, isNum] at h1
    · rw [root_mul] at h1
      subst h1
      right
      exact (size_root f).trans (size_mem (by simpa [factors] using h)).le
  | _ =>
    simp only [factors, List.mem_singleton] at h
    rw [h]
    rcases he with h1 | h1
    · exact Or.inl h1
    · exact Or.inr (by rw [h1])

theorem simplifyPowers_factor (P : SimplifyPow.Ops) {e f : Expr} {m : List Expr} {input : Bool}
    (hm : simplifyPowers P n e input = .mul m) (hf : f ∈ m) : isNum (root f) = true ∨ sizeOf (root f) < sizeOf (root e) := by
  have hff : f ∈ factors (simplifyPowers P n e input) := by rw [hm]; exact hf
  have plain : ∀ (fl : Bool) (u v : Expr), simplifyPowers P n e input = returnPower n fl (root e) u v input →
      isNum (root f) = true ∨ sizeOf (root f) < sizeOf (root e) := by
    intro fl u v h
    rcases root_returnPower n fl (root e) u v input with h1 | h1
    · rw [← h, hm] at h1
      simp [root, isNum] at h1
    · rw [← h, hm, root_root, root_mul] at h1
      right
      rw [← h1]
      exact lt_of_le_of_lt (size_root f) (size_mem hf)
  unfold simplifyPowers at plain hff
  simp only [realBase_root] at plain hff
  split at hff
  · rename_i l hl
    split at hff
    · rename_i ho
      refine plain false (realBase e (.num 1, .num 1)).2.1 (realBase e (.num 1, .num 1)).2.2 ?_
      rw [hl]
      simp [ho]
    · rw [powMul] at hff
      rcases factors_foldr (g := powFactor n _ input) hff with h | h | ⟨a, ha, h⟩
      · obtain ⟨q, rfl⟩ := isNum_eq h
        left; simp [root, isNum]
      · have : f = .num 1 := by simpa [factors] using h
        subst this
        left; simp [root, isNum]
      · rw [powFactor, realBase_root] at h
        rcases root_factor (root_returnPower n _ (root a) _ _ input) h with h1 | h1
        · exact Or.inl h1
        · right
          rw [root_root] at h1
          rw [hl]
          exact lt_of_le_of_lt (h1.trans (size_root a)) (size_mem ha)
  · rename_i q hq
    refine plain (SimplifyPow.numericRoot P q (realBase e (.num 1, .num 1)).2.1) (realBase e (.num 1, .num 1)).2.1 (realBase e (.num 1, .num 1)).2.2 ?_
    rw [hq]
  · rename_i h1 h2
    refine plain false (realBase e (.num 1, .num 1)).2.1 (realBase e (.num 1, .num 1)).2.2 ?_
    split
    · rename_i l hl; exact absurd hl (h1 l)
    · rename_i q hq; exact absurd hq (h2 q)
    · rfl

theorem lg_mem_cases {a b : Expr} (h : b ∈ logCalls a) : (∃ q, b = .num q) ∨ ∃ l f, a = .mul l ∧ f ∈ l ∧ b = .fn .log [f] := by
  unfold logCalls at h
  split at h
  · rename_i l
    obtain ⟨f, hf, rfl⟩ := List.mem_map.mp h
    rcases lg_cases f with h1 | ⟨h1, _⟩
    · exact Or.inl h1
    · exact Or.inr ⟨l, f, rfl, (List.mem_filter.mp hf).1, h1⟩
  · simp at h

theorem acc_log_numRoot {a : Expr} (h : isNum (root a) = true) : Acc (Inner O n pfuel) (.fn .log [a]) := by
  refine ⟨_, fun b hb => ?_⟩
  rw [Inner, calls] at hb
  rcases lg_mem_cases hb with ⟨q, rfl⟩ | ⟨l, f, h1, h2, _⟩
  · exact acc_num q
  · exfalso
    obtain ⟨q, hq⟩ := isNum_eq h
    cases a with
    | pow c x =>
      simp only [elemArg, simplifyPowers, realBase_root] at h1
      rw [hq] at h1
      dsimp only at h1
      rcases root_returnPower n (SimplifyPow.numericRoot O.P q (realBase (.pow c x) (.num 1, .num 1)).2.1) (.num q)
        (realBase (.pow c x) (.num 1, .num 1)).2.1 (realBase (.pow c x) (.num 1, .num 1)).2.2 true with h3 | h3
      · rw [h1] at h3
        simp [root, isNum] at h3
      · rw [h1] at h3
        simp [root] at h3
    | num p => simp [elemArg] at h1
    | _ => simp [root] at hq

/-- The rewriting of a logarithm ends. -/
theorem acc_log (a : Expr) : Acc (Inner O n pfuel) (.fn .log [a]) := by
  suffices h : ∀ s (a : Expr), sizeOf (root a) < s → Acc (Inner O n pfuel) (.fn .log [a]) from h _ a (Nat.lt_succ_self _)
  intro s
  induction s with
  | zero => intro a h; omega
  | succ s ih =>
    intro a hs
    refine ⟨_, fun b hb => ?_⟩
    rw [Inner, calls] at hb
    rcases lg_mem_cases hb with ⟨q, rfl⟩ | ⟨l, f, h1, h2, rfl⟩
    · exact acc_num q
    · have key : isNum (root f) = true ∨ sizeOf (root f) < sizeOf (root a) := by
        cases a with
        | pow c x =>
          rw [elemArg] at h1
          exact simplifyPowers_factor O.P h1 h2
        | mul m =>
          have hm : m = l := by simpa [elemArg] using h1
          subst hm
          right
          rw [root_mul]
          exact lt_of_le_of_lt (size_root f) (size_mem h2)
        | _ => simp [elemArg] at h1
      rcases key with h3 | h3
      · exact acc_log_numRoot h3
      · exact ih f (by omega)


/-! ## Exponents of exponents -/

/-- Exponents are nested at most `k` deep. -/
def Nu : Expr → ℕ → Prop
  | .add l, k => ∀ a ∈ l, Nu a k
  | .mul l, k => ∀ a ∈ l, Nu a k
  | .pow b x, k => Nu b k ∧ ∃ j, j < k ∧ Nu x j
  | .fn _ l, k => ∀ a ∈ l, Nu a k
  | .binder _ i lo up body, k => Nu i k ∧ Nu lo k ∧ Nu up k ∧ Nu body k
  | _, _ => True

/-- The same, not counting what is inside a logarithm. -/
def W : Expr → ℕ → Prop
  | .add l, k => ∀ a ∈ l, W a k
  | .mul l, k => ∀ a ∈ l, W a k
  | .pow b x, k => W b k ∧ ∃ j, j < k ∧ Nu x j
  | .fn f l, k => (f = .log ∧ l.length = 1) ∨ ∀ a ∈ l, W a k
  | .binder _ i lo up body, k => W i k ∧ W lo k ∧ W up k ∧ W body k
  | _, _ => True

theorem Nu.mono {e : Expr} {j k : ℕ} (h : Nu e j) (hjk : j ≤ k) : Nu e k := by
  induction e using Expr.ind with
  | add l ih => rw [Nu] at h ⊢; exact fun a ha => ih a ha (h a ha)
  | mul l ih => rw [Nu] at h ⊢; exact fun a ha => ih a ha (h a ha)
  | fn f l ih => rw [Nu] at h ⊢; exact fun a ha => ih a ha (h a ha)
  | pow b x ihb _ =>
    rw [Nu] at h ⊢
    obtain ⟨h1, i, h2, h3⟩ := h
    exact ⟨ihb h1, i, by omega, h3⟩
  | binder k i a b c h1 h2 h3 h4 =>
    rw [Nu] at h ⊢
    exact ⟨h1 h.1, h2 h.2.1, h3 h.2.2.1, h4 h.2.2.2⟩
  | _ => simp [Nu]

theorem Nu.w {e : Expr} {k : ℕ} (h : Nu e k) : W e k := by
  induction e using Expr.ind with
  | add l ih => rw [Nu] at h; rw [W]; exact fun a ha => ih a ha (h a ha)
  | mul l ih => rw [Nu] at h; rw [W]; exact fun a ha => ih a ha (h a ha)
  | fn f l ih => rw [Nu] at h; rw [W]; exact Or.inr fun a ha => ih a ha (h a ha)
  | pow b x ihb _ =>
    rw [Nu] at h; rw [W]
    exact ⟨ihb h.1, h.2⟩
  | binder k i a b c h1 h2 h3 h4 =>
    rw [Nu] at h; rw [W]
    exact ⟨h1 h.1, h2 h.2.1, h3 h.2.2.1, h4 h.2.2.2⟩
  | _ => simp [W]

theorem nu_list {l : List Expr} (h : ∀ a ∈ l, ∃ k, Nu a k) : ∃ k, ∀ a ∈ l, Nu a k := by
  induction l with
  | nil => exact ⟨0, by simp⟩
  | cons a l ih =>
    obtain ⟨k, hk⟩ := ih fun b hb => h b (by simp [hb])
    obtain ⟨j, hj⟩ := h a (by simp)
    refine ⟨max j k, fun b hb => ?_⟩
    rcases List.mem_cons.mp hb with rfl | hb
    · exact hj.mono (le_max_left _ _)
    · exact (hk b hb).mono (le_max_right _ _)

theorem nu_exists (e : Expr) : ∃ k, Nu e k := by
  induction e using Expr.ind with
  | add l ih => simpa only [Nu] using nu_list ih
  | mul l ih => simpa only [Nu] using nu_list ih
  | fn f l ih => simpa only [Nu] using nu_list ih
  | pow b x ihb ihx =>
    obtain ⟨j, hj⟩ := ihx
    obtain ⟨k, hk⟩ := ihb
    refine ⟨max k (j + 1), ?_⟩
    rw [Nu]
    exact ⟨hk.mono (le_max_left _ _), j, by omega, hj⟩
  | binder k i a b c h1 h2 h3 h4 =>
    obtain ⟨k1, h1⟩ := h1
    obtain ⟨k2, h2⟩ := h2
    obtain ⟨k3, h3⟩ := h3
    obtain ⟨k4, h4⟩ := h4
    refine ⟨k1 + k2 + k3 + k4, ?_⟩
    rw [Nu]
    exact ⟨h1.mono (by omega), h2.mono (by omega), h3.mono (by omega), h4.mono (by omega)⟩
  | _ => exact ⟨0, by simp [Nu]⟩

theorem nu_mulE {a b : Expr} {k : ℕ} (ha : Nu a k) (hb : Nu b k) : Nu (mulE a b) k := by
  revert ha hb
  cases a <;> cases b <;> simp only [mulE] <;> (try split) <;> (try split) <;> simp_all [Nu, or_imp]

theorem nu_addE {a b : Expr} {k : ℕ} (ha : Nu a k) (hb : Nu b k) : Nu (addE a b) k := by
  revert ha hb
  cases a <;> cases b <;> simp only [addE] <;> (try split) <;> (try split) <;> simp_all [Nu, or_imp]

theorem w_mulE {a b : Expr} {k : ℕ} (ha : W a k) (hb : W b k) : W (mulE a b) k := by
  revert ha hb
  cases a <;> cases b <;> simp only [mulE] <;> (try split) <;> (try split) <;> simp_all [W, or_imp]

theorem nu_num (q : ℚ) (k : ℕ) : Nu (.num q) k := by simp [Nu]

theorem nu_subE {a b : Expr} {k : ℕ} (ha : Nu a k) (hb : Nu b k) : Nu (subE a b) k := nu_addE ha (nu_mulE (nu_num _ _) hb)

theorem nu_powE {a x : Expr} {j k : ℕ} (ha : Nu a k) (hj : j < k) (hx : Nu x j) : Nu (powE a x) k := by
  rcases powE_cases a x with ⟨p, hp⟩ | ⟨hp, _⟩ | ⟨hp, _⟩
  · rw [hp]; exact nu_num _ _
  · rw [hp]; exact ha
  · rw [hp, Nu]; exact ⟨ha, j, hj, hx⟩

theorem nu_lg {a : Expr} {k : ℕ} (h : Nu a k) : Nu (lg a) k := by
  rcases lg_cases a with ⟨q, hq⟩ | ⟨hq, _⟩
  · rw [hq]; exact nu_num _ _
  · rw [hq, Nu]; simpa using h

theorem w_lg (a : Expr) (k : ℕ) : W (lg a) k := by
  rcases lg_cases a with ⟨q, hq⟩ | ⟨hq, _⟩
  · rw [hq]; simp [W]
  · rw [hq, W]; exact Or.inl ⟨rfl, rfl⟩

theorem nu_factors {e f : Expr} {k : ℕ} (h : Nu e k) (hf : f ∈ factors e) : Nu f k := by
  cases e with
  | mul l => rw [Nu] at h; exact h f hf
  | _ =>
    simp only [factors, List.mem_singleton] at hf
    rw [hf]; exact h

theorem w_factors {e f : Expr} {k : ℕ} (h : W e k) (hf : f ∈ factors e) : W f k := by
  cases e with
  | mul l => rw [W] at h; exact h f hf
  | _ =>
    simp only [factors, List.mem_singleton] at hf
    rw [hf]; exact h

theorem nu_foldr {g : Expr → Expr} {l : List Expr} {z : Expr} {k : ℕ} (hz : Nu z k) (h : ∀ a ∈ l, Nu (g a) k) :
    Nu (l.foldr (fun a acc => mulE acc (g a)) z) k := by
  induction l with
  | nil => exact hz
  | cons a l ih => exact nu_mulE (ih fun b hb => h b (by simp [hb])) (h a (by simp))

theorem nu_foldl {g : Expr → Expr} {l : List Expr} {z : Expr} {k : ℕ} (hz : Nu z k) (h : ∀ a ∈ l, Nu (g a) k) :
    Nu (l.foldl (fun acc a => mulE acc (g a)) z) k := by
  induction l generalizing z with
  | nil => exact hz
  | cons a l ih => exact ih (nu_mulE hz (h a (by simp))) fun b hb => h b (by simp [hb])

theorem nu_splitExp {l : List Expr} {p : Expr × Expr} {k : ℕ} (hl : ∀ a ∈ l, Nu a k) (h1 : Nu p.1 k) (h2 : Nu p.2 k) :
    Nu (l.foldr splitExp p).1 k ∧ Nu (l.foldr splitExp p).2 k := by
  induction l with
  | nil => exact ⟨h1, h2⟩
  | cons a l ih =>
    obtain ⟨h3, h4⟩ := ih fun b hb => hl b (by simp [hb])
    rw [List.foldr_cons, splitExp]
    split
    · exact ⟨nu_mulE h3 (hl a (by simp)), h4⟩
    · exact ⟨h3, nu_mulE h4 (hl a (by simp))⟩

theorem nu_realBase {e : Expr} {p : Expr × Expr} {j k : ℕ} (hj : j < k) (he : Nu e k) (h1 : Nu p.1 j) (h2 : Nu p.2 j) :
    Nu (realBase e p).1 k ∧ ∃ i, i < k ∧ Nu (realBase e p).2.1 i ∧ Nu (realBase e p).2.2 i := by
  induction e using Expr.ind generalizing p j with
  | pow b x ihb _ =>
    rw [Nu] at he
    obtain ⟨hb, i, hi, hx⟩ := he
    rw [realBase]
    obtain ⟨h3, h4⟩ := nu_splitExp (l := factors x) (p := p) (k := max i j)
      (fun a ha => (nu_factors hx ha).mono (le_max_left _ _)) (h1.mono (le_max_right _ _)) (h2.mono (le_max_right _ _))
    exact ihb (by omega) hb h3 h4
  | _ =>
    simp only [realBase]
    exact ⟨he, j, hj, h1, h2⟩

theorem eraseFirst_mem_of {l m : List Expr} (h : SimplifyPow.eraseFirst n l = some m) : ∀ a ∈ m, a ∈ l := by
  induction l generalizing m with
  | nil => simp [SimplifyPow.eraseFirst] at h
  | cons b l ih =>
    rw [SimplifyPow.eraseFirst] at h
    split at h
    · simp only [Option.some.injEq] at h
      subst h
      intro a ha
      exact List.mem_cons_of_mem _ ha
    · obtain ⟨m', hm, rfl⟩ := Option.map_eq_some_iff.mp h
      intro a ha
      rcases List.mem_cons.mp ha with rfl | ha
      · simp
      · exact List.mem_cons_of_mem _ (ih hm a ha)

theorem nu_eraseFactor {x y : Expr} {k : ℕ} (h : Nu x k) (he : eraseFactor n x = some y) : Nu y k := by
  unfold eraseFactor at he
  split at he
  · obtain ⟨m, hm, rfl⟩ := Option.map_eq_some_iff.mp he
    rw [Nu] at h
    exact nu_foldl (g := fun a => a) (nu_num _ _) fun a ha => h a (eraseFirst_mem_of hm a ha)
  · split at he
    · simp only [Option.some.injEq] at he
      subst he
      exact nu_num _ _
    · simp at he

theorem nu_returnPower (n : String) (fl : Bool) {b u v : Expr} {j k : ℕ} (input : Bool) (hj : j < k) (hb : Nu b k) (hu : Nu u j) (hv : Nu v j) :
    Nu (returnPower n fl b u v input) k := by
  unfold returnPower
  split
  · split
    · exact nu_powE (nu_powE hb hj hu) hj hv
    · exact nu_powE hb hj (nu_mulE hu hv)
  · rename_i e he
    have h1 : Nu e j := by
      cases input with
      | false => simp at he
      | true => exact nu_eraseFactor hv (by simpa using he)
    have h2 : Nu (.sym n) j := by simp [Nu]
    split
    · exact nu_powE (nu_powE (nu_powE hb hj hu) hj h1) hj h2
    · exact nu_powE (nu_powE hb hj (nu_mulE hu h1)) hj h2

theorem nu_simplifyPowers (P : SimplifyPow.Ops) {e : Expr} {k : ℕ} (hk : 0 < k) (he : Nu e k) (input : Bool) :
    Nu (simplifyPowers P n e input) k := by
  obtain ⟨h1, i, hi, h2, h3⟩ := nu_realBase (p := (.num 1, .num 1)) hk he (nu_num 1 0) (nu_num 1 0)
  unfold simplifyPowers
  dsimp only
  generalize realBase e (.num 1, .num 1) = r at h1 h2 h3 ⊢
  split
  · rename_i l hl
    rw [hl] at h1
    split
    · exact nu_returnPower n false input hi h1 h2 h3
    · rw [Nu] at h1
      refine nu_foldr (nu_num _ _) fun a ha => ?_
      obtain ⟨h4, i', hi', h5, h6⟩ := nu_realBase hi (h1 a ha) h2 h3
      exact nu_returnPower n _ input hi' h4 h5 h6
  · rename_i q hq
    exact nu_returnPower n _ input hi (nu_num _ _) h2 h3
  · exact nu_returnPower n false input hi h1 h2 h3

theorem nu_factorizeLog (b : ℤ) {x : Expr} {j k : ℕ} (hj : j < k) (hx : Nu x j) : Nu (factorizeLog b x) k := by
  have h0 : Nu (lg (powE (.num b) x)) k := nu_lg (nu_powE (nu_num _ _) hj hx)
  unfold factorizeLog
  split
  · exact h0
  · split
    · exact h0
    · exact nu_mulE (nu_mulE (hx.mono hj.le) (nu_num _ _)) (nu_lg (nu_num _ _))

theorem nu_factorizeLog_one (b : ℤ) (k : ℕ) : Nu (factorizeLog b (.num 1)) k := by
  have h0 : Nu (lg (powE (.num b) (.num 1))) k := by simp [powE]; exact nu_lg (nu_num _ _)
  unfold factorizeLog
  split
  · exact h0
  · split
    · exact h0
    · exact nu_mulE (nu_mulE (nu_num _ _) (nu_num _ _)) (nu_lg (nu_num _ _))

theorem nu_elem (f : Expr → Expr) {a : Expr} {k : ℕ} (h : Nu a k) : Nu (elem O n f a false) k := by
  have h1 : Nu (elemArg O n a) k := by
    cases a with
    | pow b x =>
      rw [elemArg]
      have := h
      rw [Nu] at this
      obtain ⟨_, j, hj, _⟩ := this
      exact nu_simplifyPowers O.P (by omega) h true
    | _ => simpa [elemArg] using h
  unfold elem
  generalize elemArg O n a = a' at h1 ⊢
  split
  · rw [Nu] at h1
    obtain ⟨hb, j, hj, hx⟩ := h1
    unfold elemPow
    split
    · split
      · exact nu_factorizeLog _ hj hx
      · exact nu_subE (nu_factorizeLog _ hj hx) (nu_factorizeLog _ hj hx)
    · exact nu_mulE (hx.mono hj.le) (nu_lg hb)
  · unfold elemNum
    split
    · exact nu_factorizeLog_one _ _
    · simp only [Bool.false_eq_true, false_and, if_false]
      exact nu_lg (nu_num _ _)
  · rw [if_neg (by simp)]
    exact nu_lg h1
  · exact nu_lg h1

theorem nu_pwrI {b x : Expr} {j k : ℕ} (hj : j < k) (hb : Nu b k) (hx : Nu x j) : Nu (pwrI b x) k := by
  unfold pwrI
  split
  · rw [Nu] at hb
    split
    · exact nu_foldl (g := fun f => powE f (.num _)) (nu_num _ _) fun a ha => nu_powE (hb a ha) hj hx
    · exact nu_powE (by rw [Nu]; exact hb) hj hx
  · exact nu_powE hb hj hx

theorem nu_log {a : Expr} {k : ℕ} : Nu (.fn .log [a]) k ↔ Nu a k := by rw [Nu]; simp

theorem nu_expSimpl {el : Expr → Expr} {x : Expr} {k : ℕ} (hel : ∀ a, Nu a k → Nu (el a) k) (hx : Nu x k) : Nu (expSimpl el x) k := by
  unfold expSimpl
  split
  · rw [Nu] at hx
    refine nu_foldr (nu_num _ _) fun f hf => ?_
    have h := hx f hf
    unfold expFactor
    split
    · exact hel _ (nu_log.mp h)
    · rw [Nu, nu_log] at h
      obtain ⟨h1, j, hj, h2⟩ := h
      exact nu_pwrI hj (hel _ h1) h2
    · exact h
  · exact hel _ (nu_log.mp hx)
  · exact hx

theorem nu_scanFirst {bn : Bool} {l : List Expr} {arg rem : Expr} {k : ℕ} (hl : ∀ a ∈ l, Nu a k) (ha : Nu arg k) (hr : Nu rem k) :
    Nu (scanFirst n bn l arg rem).1 k ∧ Nu (scanFirst n bn l arg rem).2 k := by
  induction l generalizing arg rem with
  | nil => exact ⟨ha, hr⟩
  | cons f l ih =>
    have hf := hl f (by simp)
    have hl' : ∀ a ∈ l, Nu a k := fun a ha => hl a (by simp [ha])
    rw [scanFirst]
    split
    · rename_i a hm
      have h1 : Nu a k := by
        unfold moveArg logArg at hm
        split at hm
        · rename_i b hb
          split at hb
          · split at hm
            · simp only [Option.some.injEq] at hb hm
              subst hb hm
              exact nu_log.mp hf
            · simp at hm
          · simp at hb
        · simp at hm
      split
      · exact ih hl' (nu_mulE ha h1) hr
      · exact ⟨ha, hr⟩
    · exact ih hl' ha (nu_mulE hr hf)

theorem prepared_spec {b x : Expr} {j : ℕ} (hx : Nu x j) :
    ((prepared O n b x).1 = b ∨ W (prepared O n b x).1 j) ∧ W (prepared O n b x).2 j := by
  have h := nu_expSimpl (el := fun a => elem O n id a false) (fun a ha => nu_elem id ha) hx
  unfold prepared
  generalize expSimpl (fun a => elem O n id a false) x = y at h ⊢
  unfold firstProp
  split
  · rename_i l
    have hl : ∀ a ∈ l.reverse, Nu a j := by
      rw [Nu] at h
      intro a ha
      exact h a (List.mem_reverse.mp ha)
    obtain ⟨h1, h2⟩ := nu_scanFirst (n := n) (bn := isNum b) hl (nu_num 1 j) (nu_num 1 j)
    dsimp only
    split
    · exact ⟨Or.inl rfl, h.w⟩
    · exact ⟨Or.inr h1.w, w_mulE h2.w (w_lg _ _)⟩
  · exact ⟨Or.inl rfl, h.w⟩

/-! ## Quotients of logarithms -/

theorem logArg_eq' {f a : Expr} (h : logArg f = some a) : f = .fn .log [a] := by
  unfold logArg at h
  split at h
  · simp only [Option.some.injEq] at h; rw [h]
  · simp at h

theorem invLogArg_eq' {f a : Expr} (h : invLogArg f = some a) : f = invLog a := by
  unfold invLogArg at h
  split at h
  · split at h
    · rename_i hq
      simp only [Option.some.injEq] at h; rw [h, hq]; rfl
    · simp at h
  · simp at h

/-- Every factor comes from `l`. -/
def From (l : List Expr) (e : Expr) : Prop := ∀ f ∈ factors e, isNum f = true ∨ ∃ a ∈ l, f ∈ factors a

theorem From.mulE {l : List Expr} {a b : Expr} (ha : From l a) (hb : From l b) : From l (mulE a b) := by
  intro f hf
  rcases factors_mulE hf with h | h | h
  · exact Or.inl h
  · exact ha f h
  · exact hb f h

theorem from_num (l : List Expr) (q : ℚ) : From l (.num q) := by
  intro f hf
  simp only [factors, List.mem_singleton] at hf
  subst hf
  exact Or.inl rfl

theorem from_mem {l : List Expr} {a : Expr} (h : a ∈ l) : From l a := fun _ hf => Or.inr ⟨a, h, hf⟩

theorem from_foldl {l m : List Expr} {z : Expr} (hz : From l z) (h : ∀ a ∈ m, From l a) : From l (m.foldl mulE z) := by
  induction m generalizing z with
  | nil => exact hz
  | cons a m ih => exact ih (hz.mulE (h a (by simp))) fun b hb => h b (by simp [hb])

theorem from_pair {l : List Expr} {logs inv : List Expr} {s : Expr} (h1 : ∀ a ∈ logs, Expr.fn .log [a] ∈ l)
    (h2 : ∀ a ∈ inv, invLog a ∈ l) (hs : From l s) :
    From l (pairLogs O logs inv s).1 ∧ ∀ a ∈ (pairLogs O logs inv s).2, invLog a ∈ l := by
  induction logs generalizing inv s with
  | nil => exact ⟨hs, h2⟩
  | cons a logs ih =>
    have h1' : ∀ a ∈ logs, Expr.fn .log [a] ∈ l := fun b hb => h1 b (by simp [hb])
    have ha := from_mem (h1 a (by simp))
    cases inv with
    | nil => rw [pairLogs]; exact ih h1' h2 (hs.mulE ha)
    | cons b inv =>
      rw [pairLogs]
      refine ih h1' (fun c hc => h2 c (by simp [hc])) ?_
      split
      · exact hs.mulE (from_num _ _)
      · exact hs.mulE (ha.mulE (from_mem (h2 b (by simp))))

theorem quotient_from (O : Ops) (l : List Expr) : From l (quotientOfLogs O l) := by
  have hlogs : ∀ a ∈ (splitLogs l).1, Expr.fn .log [a] ∈ l := by
    intro a ha
    obtain ⟨f, hf, h⟩ := List.mem_filterMap.mp ha
    rw [← logArg_eq' h]
    exact List.mem_reverse.mp hf
  have hinv : ∀ a ∈ (splitLogs l).2.1, invLog a ∈ l := by
    intro a ha
    obtain ⟨f, hf, h⟩ := List.mem_filterMap.mp ha
    rw [← invLogArg_eq' h]
    exact List.mem_reverse.mp hf
  have hs : From l (splitLogs l).2.2 := by
    refine from_foldl (from_num _ _) fun a ha => from_mem ?_
    exact List.mem_reverse.mp (List.mem_filter.mp ha).1
  have hip : ∀ m : List Expr, (∀ a ∈ m, invLog a ∈ l) → From l (invProd m) := by
    intro m hm
    refine from_foldl (from_num _ _) fun a ha => ?_
    obtain ⟨b, hb, rfl⟩ := List.mem_map.mp ha
    exact from_mem (hm b (List.mem_reverse.mp hb))
  have hlp : ∀ m : List Expr, (∀ a ∈ m, Expr.fn .log [a] ∈ l) → From l (logProd m) := by
    intro m hm
    refine from_foldl (from_num _ _) fun a ha => ?_
    obtain ⟨b, hb, rfl⟩ := List.mem_map.mp ha
    exact from_mem (hm b (List.mem_reverse.mp hb))
  unfold quotientOfLogs
  generalize splitLogs l = r at hlogs hinv hs ⊢
  split
  · exact hs.mulE (hip _ hinv)
  · exact hs.mulE (hlp _ hlogs)
  · rename_i a b s
    have h1 := from_mem (hlogs a (by simp))
    have h2 := from_mem (hinv b (by simp))
    split
    · exact hs.mulE (from_num _ _)
    · exact (hs.mulE h1).mulE h2
  · rename_i a b inv s _
    have h1 := from_mem (hlogs a (by simp))
    split
    · exact (hs.mulE (from_num _ _)).mulE (hip _ fun c hc => hinv c (by simp [hc]))
    · exact (hs.mulE h1).mulE (hip _ fun c hc => hinv c (by simp [hc]))
  · obtain ⟨h1, h2⟩ := from_pair (O := O) hlogs hinv hs
    exact h1.mulE (hip _ h2)

/-! ## Termination -/

theorem acc_w (k : ℕ) : ∀ e, W e k → Acc (Inner O n pfuel) e := by
  induction k using Nat.strong_induction_on with
  | _ k ihk =>
  intro e
  suffices h : ∀ s (e : Expr), sizeOf e < s → W e k → Acc (Inner O n pfuel) e from h _ e (Nat.lt_succ_self _)
  intro s
  induction s with
  | zero => intro e h; omega
  | succ s ih =>
    intro e hs he
    cases e with
    | add l =>
      rw [W] at he
      refine ⟨_, fun a ha => ?_⟩
      rw [Inner, calls] at ha
      have := List.sizeOf_lt_of_mem ha
      simp only [Expr.add.sizeOf_spec] at hs
      exact ih a (by omega) (he a ha)
    | mul l =>
      rw [W] at he
      refine ⟨_, fun f hf => ?_⟩
      rw [Inner, calls] at hf
      rcases quotient_from O l f hf with h | ⟨a, ha, h⟩
      · obtain ⟨q, rfl⟩ := isNum_eq h
        exact acc_num q
      · have h1 := factors_size h
        have h2 := size_mem ha
        exact ih f (by omega) (w_factors (he a ha) h)
    | pow b x =>
      rw [W] at he
      obtain ⟨hb, j, hj, hx⟩ := he
      obtain ⟨h1, h2⟩ := prepared_spec (O := O) (n := n) (b := b) hx
      refine ⟨_, fun a ha => ?_⟩
      rw [Inner, calls] at ha
      split at ha
      · simp at ha
      · simp only [List.mem_cons, List.not_mem_nil, or_false] at ha
        rcases ha with rfl | rfl
        · rcases h1 with h1 | h1
          · rw [h1]
            simp only [Expr.pow.sizeOf_spec] at hs
            exact ih b (by omega) hb
          · exact ihk j hj _ h1
        · exact ihk j hj _ h2
    | fn f l =>
      rw [W] at he
      rcases he with ⟨rfl, hl⟩ | he
      · obtain ⟨a, rfl⟩ := List.length_eq_one_iff.mp hl
        exact acc_log a
      · by_cases hlog : f = .log ∧ l.length = 1
        · obtain ⟨rfl, hl⟩ := hlog
          obtain ⟨a, rfl⟩ := List.length_eq_one_iff.mp hl
          exact acc_log a
        · refine ⟨_, fun a ha => ?_⟩
          have hc : calls O n pfuel (.fn f l) = l := by
            rw [calls]
            intro a h1 h2
            exact hlog ⟨h1, by rw [h2]; rfl⟩
          rw [Inner, hc] at ha
          have := List.sizeOf_lt_of_mem ha
          simp only [Expr.fn.sizeOf_spec] at hs
          exact ih a (by omega) (he a ha)
    | binder kk i lo up body =>
      rw [W] at he
      simp only [Expr.binder.sizeOf_spec] at hs
      refine ⟨_, fun a ha => ?_⟩
      rw [Inner, calls] at ha
      simp only [List.mem_cons, List.not_mem_nil, or_false] at ha
      rcases ha with rfl | rfl | rfl | rfl
      · exact ih _ (by omega) he.1
      · exact ih _ (by omega) he.2.1
      · exact ih _ (by omega) he.2.2.1
      · exact ih _ (by omega) he.2.2.2
    | _ => exact ⟨_, fun a ha => by simp [Inner, calls] at ha⟩

/-- C95: there is no infinite chain of nested calls of `simplify_logarithm_in_expanded_ex`, for every expression. -/
theorem C95_terminates (O : Ops) (n : String) (pfuel : ℕ) : WellFounded (Inner O n pfuel) := by
  refine ⟨fun e => ?_⟩
  obtain ⟨k, hk⟩ := nu_exists e
  exact acc_w k e hk.w

/-- C95: the nested calls are those of `calls`: two functions for the nested calls that agree on them give the same result. -/
theorem C95_calls (O : Ops) (n : String) (pfuel : ℕ) (f g : Expr → Expr) (e : Expr) (h : ∀ a ∈ calls O n pfuel e, f a = g a) :
    step O n pfuel f e = step O n pfuel g e := step_congr O n pfuel h

theorem calls_bound (P : Expr → ℕ → Prop) (hm : ∀ e i j, i ≤ j → P e i → P e j) (l : List Expr) (h : ∀ a ∈ l, ∃ F, P a F) :
    ∃ F, ∀ a ∈ l, P a F := by
  induction l with
  | nil => exact ⟨0, by simp⟩
  | cons a l ih =>
    obtain ⟨F, hF⟩ := ih fun b hb => h b (by simp [hb])
    obtain ⟨G, hG⟩ := h a (by simp)
    refine ⟨max F G, fun b hb => ?_⟩
    rcases List.mem_cons.mp hb with rfl | hb
    · exact hm _ _ _ (le_max_right _ _) hG
    · exact hm _ _ _ (le_max_left _ _) (hF b hb)

/-- C95: the depth of the nested calls is bounded for every expression: with enough fuel the model is the function without fuel. -/
theorem C95_depth (O : Ops) (n : String) (pfuel : ℕ) (e : Expr) :
    ∃ F, ∀ f g, F ≤ f → F ≤ g → simp O n pfuel f e = simp O n pfuel g e := by
  induction e using (C95_terminates O n pfuel).induction with
  | _ e ih =>
    obtain ⟨F, hF⟩ := calls_bound (fun e F => ∀ f g, F ≤ f → F ≤ g → simp O n pfuel f e = simp O n pfuel g e)
      (fun e i j hij h f g hf hg => h f g (by omega) (by omega)) (calls O n pfuel e) ih
    refine ⟨F + 1, fun f g hf hg => ?_⟩
    obtain ⟨f, rfl⟩ : ∃ f', f = f' + 1 := ⟨f - 1, by omega⟩
    obtain ⟨g, rfl⟩ : ∃ g', g = g' + 1 := ⟨g - 1, by omega⟩
    rw [simp, simp]
    exact step_congr O n pfuel fun a ha => hF a ha f g (by omega) (by omega)

/-- C95: there is exactly one function that satisfies the equations of the code. -/
theorem C95_unique (O : Ops) (n : String) (pfuel : ℕ) :
    ∃! f : Expr → Expr, ∀ e, f e = step O n pfuel f e := by
  choose F hF using C95_depth O n pfuel
  refine ⟨fun e => simp O n pfuel (F e) e, fun e => ?_, fun g hg => ?_⟩
  · obtain ⟨M, hM⟩ := calls_bound (fun e M => F e ≤ M) (fun _ _ _ h h1 => h1.trans h) (calls O n pfuel e) fun a _ => ⟨F a, le_rfl⟩
    show simp O n pfuel (F e) e = _
    rw [hF e (F e) (F e + M + 1) le_rfl (by omega), simp]
    exact step_congr O n pfuel fun a ha => hF a _ _ (by have := hM a ha; omega) le_rfl
  · funext e
    induction e using (C95_terminates O n pfuel).induction with
    | _ e ih =>
      obtain ⟨M, hM⟩ := calls_bound (fun e M => F e ≤ M) (fun _ _ _ h h1 => h1.trans h) (calls O n pfuel e) fun a _ => ⟨F a, le_rfl⟩
      rw [hg e]
      show _ = simp O n pfuel (F e) e
      rw [hF e (F e) (F e + M + 1) le_rfl (by omega), simp]
      refine step_congr O n pfuel fun a ha => ?_
      rw [ih a ha]
      exact hF a _ _ le_rfl (by have := hM a ha; omega)

/-- The relation is not empty: the call for `log(a b^2)` makes a call for `log(b^2)`, the call for `n^(c log(2))` makes calls for `n`
and `c log(2)`. -/
example (O : Ops) (pfuel : ℕ) :
    Inner O "n" pfuel (.fn .log [.pow (.sym "b") (.num 2)]) (.fn .log [.mul [.sym "a", .pow (.sym "b") (.num 2)]]) ∧
    Inner O "n" pfuel (.sym "n") (.pow (.sym "n") (.mul [.sym "c", .sym "d"])) := by
  constructor
  · simp [Inner, calls, logCalls, elemArg, lg]
  · have h : prepared O "n" (.sym "n") (.mul [.sym "c", .sym "d"]) = (.sym "n", .mul [.sym "d", .sym "c"]) := by
      simp [prepared, expSimpl, expFactor, mulE, firstProp, scanFirst, moveArg, logArg]
    rw [Inner, calls, h]
    simp [shortcut, napier]

end Purrs.SimplifyLog
