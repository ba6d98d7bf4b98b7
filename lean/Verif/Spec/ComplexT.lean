/-
What an assignment to a `complex_t` in memory means.
-/
import Verif.Model.ComplexT
import Verif.Spec.Simd

namespace OTFFT

/-- `m'` is `m` with the `complex_t` at `a` replaced by `z`; no other double has changed. -/
def Assigned {F : Type} (m m' : DMem F) (a : ℕ) (z : Xmm F) : Prop :=
  m'.cpx a = z ∧ ∀ l, l ≠ a → l ≠ a + 1 → m' l = m l

/-- Two `complex_t` objects are the same object or have no double in common. -/
def SameOrApart (a b : ℕ) : Prop := b = a ∨ b + 1 < a ∨ a + 1 < b

end OTFFT
