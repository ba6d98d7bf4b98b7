/-
Rounding to nearest, ties to even, with a 53 bit significand: the arithmetic of `double` as long as nothing overflows or
underflows.
-/
import Verif.Spec.Float
import Mathlib.Data.Int.Log
import Mathlib.Algebra.Order.Floor.Ring
import Mathlib.Algebra.Ring.Int.Parity

namespace OTFFT

/-- the nearest integer, of two equally near ones the even one -/
noncomputable def rne (y : ℝ) : ℤ :=
  if Int.fract y < 1 / 2 then ⌊y⌋ else if 1 / 2 < Int.fract y then ⌊y⌋ + 1 else if Even ⌊y⌋ then ⌊y⌋ else ⌊y⌋ + 1

/-- the nearest number with a 53 bit significand, ties to even -/
noncomputable def rnd53 (x : ℝ) : ℝ := rne (x / 2 ^ (Int.log 2 |x| - 52)) * 2 ^ (Int.log 2 |x| - 52)

/-- numbers rounded to 53 bits, without bounds on the exponent -/
structure R53 where
  val : ℝ
deriving Inhabited

noncomputable instance : FArith R53 where
  fadd a b := ⟨rnd53 (a.val + b.val)⟩
  fsub a b := ⟨rnd53 (a.val - b.val)⟩
  fmul a b := ⟨rnd53 (a.val * b.val)⟩
  fdiv a b := ⟨rnd53 (a.val / b.val)⟩
  fneg a := ⟨-a.val⟩
  fsqrt a := ⟨rnd53 (√a.val)⟩
  fcos a := ⟨rnd53 (Real.cos a.val)⟩
  fsin a := ⟨rnd53 (Real.sin a.val)⟩
  fpi := ⟨rnd53 Real.pi⟩
  fofNat n := ⟨n⟩
  ffma a b c := ⟨rnd53 (a.val * b.val + c.val)⟩
  ffms a b c := ⟨rnd53 (a.val * b.val - c.val)⟩
  sqrt1_2 := ⟨rnd53 (√2 / 2)⟩
  h1x := ⟨rnd53 (Real.cos (Real.pi / 8))⟩
  h1y := ⟨rnd53 (-Real.sin (Real.pi / 8))⟩

end OTFFT
