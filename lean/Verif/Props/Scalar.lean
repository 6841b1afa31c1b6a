import Verif.Props.SimplifySum

/-!
# Symbols that do not occur
-/

namespace Purrs.CapstoneLinear

theorem scalar_powE {m : String} {a b : Expr} (ha : isScalarRep m a = true) (hb : isScalarRep m b = true) :
    isScalarRep m (powE a b) = true := by
  cases a <;> cases b <;> simp only [powE] <;> (try split) <;> (try split) <;> simp_all [isScalarRep]

/-- A symbol that occurs neither in the expression nor in what is put in does not occur in the result. -/
theorem scalar_substitute {m : String} {s r e : Expr} (hr : isScalarRep m r = true) (he : isScalarRep m e = true) :
    isScalarRep m (substitute s r e) = true := by
  induction e using Expr.ind with
  | num q => rw [substitute]; split <;> simp_all [isScalarRep]
  | const c => rw [substitute]; split <;> simp_all [isScalarRep]
  | sym t => rw [substitute]; split <;> simp_all [isScalarRep]
  | add l ih =>
    rw [substitute]
    split
    · exact hr
    · simp only [isScalarRep, List.all_map, List.all_eq_true, Function.comp, id] at he
      clear * - ih he
      induction l with
      | nil => simp [isScalarRep]
      | cons a l ih2 =>
        exact SimplifySum.scalar_addE (ih2 (fun b hb => ih b (by simp [hb])) fun b hb => he b (by simp [hb])) (ih a (by simp) (he a (by simp)))
  | mul l ih =>
    rw [substitute]
    split
    · exact hr
    · simp only [isScalarRep, List.all_map, List.all_eq_true, Function.comp, id] at he
      clear * - ih he
      induction l with
      | nil => simp [isScalarRep]
      | cons a l ih2 =>
        exact SimplifySum.scalar_mulE (ih2 (fun b hb => ih b (by simp [hb])) fun b hb => he b (by simp [hb])) (ih a (by simp) (he a (by simp)))
  | pow b x hb hx =>
    rw [substitute]
    split
    · exact hr
    · simp only [isScalarRep, Bool.and_eq_true] at he
      exact scalar_powE (hb he.1) (hx he.2)
  | fn f l ih =>
    rw [substitute]
    split
    · exact hr
    · simp only [isScalarRep, List.all_map, List.all_eq_true, Function.comp, id] at he ⊢
      intro b hb
      exact ih b hb (he b hb)
  | binder k i a b c hi ha hb hc =>
    rw [substitute]
    split
    · exact hr
    · simp only [isScalarRep, Bool.and_eq_true] at he ⊢
      exact ⟨⟨⟨hi he.1.1.1, ha he.1.1.2⟩, hb he.1.2⟩, hc he.2⟩

end Purrs.CapstoneLinear
