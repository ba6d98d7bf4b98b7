/-
Arithmetic that treats signs symmetrically, and the two exact symmetries of the transforms that follow from it.
-/
import Verif.Spec.Hom

namespace OTFFT

/-- `r false a b`: the doubles `a` and `b` are the same; `r true a b`: `b` is the opposite of `a` (both up to details such as the sign of
zeros, which `r` may ignore). Changing signs of the operands of a sum, a product or a multiply-add changes nothing but the sign of
the result; a difference is the sum with the opposite; the order of the terms of a sum has no influence. This is what a rounding
that is symmetric around 0 guarantees, such as IEEE 754's round to nearest. -/
structure Signed {F : Type} [FArith F] (r : Bool → F → F → Prop) : Prop where
  refl : ∀ a, r false a a
  symm : ∀ {f a b}, r f a b → r f b a
  trans : ∀ {f a b c}, r f a b → r false b c → r f a c
  neg : ∀ {f a b}, r f a b → r (!f) a (fneg b)
  zero : r true (fofNat 0) (fofNat 0)
  add : ∀ {f a a' b b'}, r f a a' → r f b b' → r f (fadd a b) (fadd a' b')
  add_comm : ∀ a b, r false (fadd a b) (fadd b a)
  sub : ∀ a b, r false (fsub a b) (fadd a (fneg b))
  mul : ∀ {f g a a' b b'}, r f a a' → r g b b' → r (f != g) (fmul a b) (fmul a' b')
  fma : ∀ {f g a a' b b' c c'}, r f a a' → r g b b' → r (f != g) c c' → r (f != g) (ffma a b c) (ffma a' b' c')
  fms : ∀ a b c, r false (ffms a b c) (ffma a b (fneg c))

/-- `b` is the complex conjugate of `a` -/
def ConjOf {F : Type} (r : Bool → F → F → Prop) (a b : Xmm F) : Prop := r false (a 0) (b 0) ∧ r true (a 1) (b 1)

/-- `b` is `a` times the imaginary unit: `b.Re = -a.Im` and `b.Im = a.Re` -/
def TimesI {F : Type} (r : Bool → F → F → Prop) (a b : Xmm F) : Prop := r true (a 1) (b 0) ∧ r false (a 0) (b 1)

/-- doubles: `b` is `a` (`f = false`) or `-a` (`f = true`), up to the sign of zeros -/
def Ieee.signed {ρ : ℝ → ℝ} {Ω : ℝ} (f : Bool) (a b : Ieee ρ Ω) : Prop := if f then a.opp b else a.same b

/-- the compilation has fused multiply-add (`__FMA__` is tested inside `#ifdef __SSE3__` inside `#ifdef __SSE2__`) -/
def Target.fused (i : Target) : Bool := i.sse2 && i.sse3 && i.fma

end OTFFT
