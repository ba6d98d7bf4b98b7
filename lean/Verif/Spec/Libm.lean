/-
The mathematical functions of the C library.
-/
import Mathlib.Analysis.SpecialFunctions.Trigonometric.Basic

namespace OTFFT

/-- `x` is (the value of) a finite double: `m · 2^e` with `|m| < 2⁵³`, `-1074 ≤ e ≤ 971` -/
def IsDouble (x : ℝ) : Prop := ∃ m e : ℤ, |m| < 2 ^ 53 ∧ -1074 ≤ e ∧ e ≤ 971 ∧ x = m * 2 ^ e

/-- `cos` and `sin` of the C library, for finite arguments: any functions that return doubles, are in error by at most one unit in
the last place of 1 for arguments up to 8, and are exact for argument 0 (C99, F.9.1.5 and F.9.1.6). Nothing else is assumed: they
need not be correctly rounded, monotone, or related to one another. -/
class Libm where
  cos : ℝ → ℝ
  sin : ℝ → ℝ
  cos_double : ∀ x, IsDouble (cos x)
  sin_double : ∀ x, IsDouble (sin x)
  cos_err : ∀ x, |x| ≤ 8 → |cos x - Real.cos x| ≤ 1 / 2 ^ 52
  sin_err : ∀ x, |x| ≤ 8 → |sin x - Real.sin x| ≤ 1 / 2 ^ 52
  cos_zero : cos 0 = 1
  sin_zero : sin 0 = 0

end OTFFT
