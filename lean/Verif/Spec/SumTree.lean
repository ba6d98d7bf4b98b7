/-
Specification: a number that is computed by additions only.
-/
import Verif.Model.Simd
import Mathlib.Data.Multiset.AddSub
import Mathlib.Data.Nat.Factors

namespace OTFFT

/-- `SumOf add u c A z`: the result `z` is computed from the elements `u t`, `t ∈ A`, by applications of `add` and nothing else; every
element is used as often as its index occurs in `A`, and goes through at most `c` additions. The order and the grouping of the
additions are not specified. -/
inductive SumOf {C : Type} (add : C → C → C) (u : ℕ → C) : ℕ → Multiset ℕ → C → Prop
  | elem (t : ℕ) : SumOf add u 0 {t} (u t)
  | add {c d : ℕ} {A B : Multiset ℕ} {a b : C} : SumOf add u c A a → SumOf add u d B b → SumOf add u (max c d + 1) (A + B) (add a b)

/-- addition of pairs of doubles, one addition for each component -/
def pairAdd {F : Type} [FArith F] (a b : Xmm F) : Xmm F := ![fadd (a 0) (b 0), fadd (a 1) (b 1)]

/-- subtraction of pairs of doubles, one subtraction for each component -/
def pairSub {F : Type} [FArith F] (a b : Xmm F) : Xmm F := ![fsub (a 0) (b 0), fsub (a 1) (b 1)]

/-- multiplication of a pair of doubles, read as a complex number, by the imaginary unit: no rounding -/
def pairJ {F : Type} [FArith F] (a : Xmm F) : Xmm F := ![fneg (a 1), a 0]

/-- number of additions that a sample goes through in a transform of length `n`: `p - 1` for every prime factor `p` of `n`, with
multiplicity. It is `log2 n` for a power of two. -/
def addDepth (n : ℕ) : ℕ := (n.primeFactorsList.map (· - 1)).sum

end OTFFT
