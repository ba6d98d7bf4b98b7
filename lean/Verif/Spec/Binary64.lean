/-
IEEE 754 binary64, round to nearest, ties to even: 53 bit significands, gradual underflow, signed zeros, infinities,
NaN.
-/
import Verif.Spec.Rnd53
import Verif.Spec.Hom

namespace OTFFT

/-- exponent of the last place of the doubles next to `x` -/
noncomputable def lastPlace (x : ℝ) : ℤ := max (Int.log 2 |x| - 52) (-1074)

/-- the double nearest to `x`, ties to even, if there were no largest double -/
noncomputable def rnd64 (x : ℝ) : ℝ := rne (x / 2 ^ lastPlace x) * 2 ^ lastPlace x

/-- the largest double -/
noncomputable def maxDbl : ℝ := (2 - 1 / 2 ^ 52) * 2 ^ 1023

/-- the doubles with the arithmetic of IEEE 754 -/
abbrev Dbl64 := Ieee rnd64 maxDbl

/-- the value of a finite double -/
def Ieee.val {ρ : ℝ → ℝ} {Ω : ℝ} (a : Ieee ρ Ω) : ℝ :=
  match a.d with
  | .num x _ => x
  | _ => 0

/-- `a` is a finite double -/
def Dbl64.Finite (a : Dbl64) : Prop := ∃ x z, a.d = .num x z ∧ IsDouble x

end OTFFT
