/-
The compile-time square root `mysqrt`: what it returns in exact arithmetic.
-/
import Verif.Model.Arith
import Mathlib.Tactic.Positivity
import Mathlib.Tactic.Linarith
import Mathlib.Tactic.FieldSimp

namespace OTFFT

/-- the recursion is deterministic -/
theorem SqrtAux.unique {F : Type} [DArith F] {a x y r s : F} (h : SqrtAux a x y r) (h' : SqrtAux a x y s) : r = s := by
  induction h with
  | stop x =>
    cases h' with
    | stop => rfl
    | step hne _ => exact absurd rfl hne
  | step hne _ ih =>
    cases h' with
    | stop => exact absurd rfl hne
    | step _ h' => exact ih h'

theorem IsMySqrt.mysqrt_eq {F : Type} [DArith F] {a r : F} (h : IsMySqrt a r) : mysqrt a = r := by
  unfold mysqrt
  rw [dif_pos ⟨r, h⟩]
  exact SqrtAux.unique (Exists.choose_spec ⟨r, h⟩) h

/-- either the recursion ends or the value is a plain square root -/
theorem mysqrt_cases {F : Type} [DArith F] (a : F) : IsMySqrt a (mysqrt a) ∨ mysqrt a = fsqrt a := by
  unfold mysqrt
  split
  · rename_i h; exact .inl h.choose_spec
  · exact .inr rfl

/-! ### exact arithmetic -/

theorem SqrtAux.exact {a x y r : ℝ} (h : SqrtAux a x y r) (ha : 0 < a) (hy : 0 < y) (hx : x = (y + a / y) / 2) : r = √a := by
  induction h with
  | stop x =>
    have : x * x = a := by
      field_simp at hx
      linarith
    rw [← this, Real.sqrt_mul_self hy.le]
  | @step x y r _ _ ih =>
    have : 0 < x := by rw [hx]; positivity
    exact ih this rfl

theorem mysqrt_C {a : ℝ} (ha : 0 ≤ a) : mysqrt a = √a := by
  rcases mysqrt_cases a with h | h
  · rcases ha.eq_or_lt with rfl | ha
    · have h0 : IsMySqrt (0:ℝ) 0 := by
        unfold IsMySqrt
        have : fdiv (0:ℝ) (fofNat 2) = 0 := by simp [fdiv]
        rw [this]
        exact .stop 0
      rw [h0.mysqrt_eq, Real.sqrt_zero]
    · unfold IsMySqrt at h
      have e : fdiv a (fofNat 2) = a / 2 := by simp [fdiv, fofNat]
      rw [e] at h
      generalize mysqrt a = r at h
      have key : ∀ y, y = a → SqrtAux a (a / 2) y r → r = √a := by
        intro y hy h
        generalize hx : a / 2 = x at h
        cases h with
        | stop => linarith
        | step _ h => exact h.exact ha (by rw [← hx]; positivity) (by simp [fdiv, fofNat, fadd])
      exact key a rfl h
  · rw [h]; rfl

end OTFFT
