/-
What IEEE 754 double precision guarantees: the assumptions of the theorems on rounding errors.
-/
import Verif.Model.Simd
import Verif.Model.Objects
import Verif.Model.Real
import Verif.Spec.DFT
import Verif.Spec.Simd
import Mathlib.Data.Nat.Factors

namespace OTFFT

/-- Arithmetic that rounds to nearest. `val a` is the number a finite double `a` stands for. `u` is the unit roundoff,
`η` the largest error of a result that underflows, `Ω` the largest finite number.

Every operation on finite operands whose exact result has a magnitude of at most `Ω` gives a finite result with a
relative error of at most `u` (plus `η` for the operations that can underflow). Integers up to `1/u` are exact. The
constants have a relative error of at most `u`. `sin` and `cos` of an argument of magnitude up to 8 have an absolute
error of at most `2u`; this last one is not in IEEE 754, but holds for a C library that is correct to one unit in the
last place. Nothing is assumed about results that overflow, and nothing about infinities and NaNs. -/
structure FloatLaws (F : Type) [FArith F] (val : F → ℝ) (fin : F → Prop) (u η Ω : ℝ) : Prop where
  add : ∀ a b, fin a → fin b → |val a + val b| ≤ Ω →
    fin (fadd a b) ∧ |val (fadd a b) - (val a + val b)| ≤ u * |val a + val b|
  sub : ∀ a b, fin a → fin b → |val a - val b| ≤ Ω →
    fin (fsub a b) ∧ |val (fsub a b) - (val a - val b)| ≤ u * |val a - val b|
  mul : ∀ a b, fin a → fin b → |val a * val b| ≤ Ω →
    fin (fmul a b) ∧ |val (fmul a b) - val a * val b| ≤ u * |val a * val b| + η
  div : ∀ a b, fin a → fin b → val b ≠ 0 → |val a / val b| ≤ Ω →
    fin (fdiv a b) ∧ |val (fdiv a b) - val a / val b| ≤ u * |val a / val b| + η
  fma : ∀ a b c, fin a → fin b → fin c → |val a * val b + val c| ≤ Ω →
    fin (ffma a b c) ∧ |val (ffma a b c) - (val a * val b + val c)| ≤ u * |val a * val b + val c| + η
  fms : ∀ a b c, fin a → fin b → fin c → |val a * val b - val c| ≤ Ω →
    fin (ffms a b c) ∧ |val (ffms a b c) - (val a * val b - val c)| ≤ u * |val a * val b - val c| + η
  sqrt : ∀ a, fin a → 0 ≤ val a → fin (fsqrt a) ∧ |val (fsqrt a) - √(val a)| ≤ u * √(val a)
  neg : ∀ a, fin a → fin (fneg a) ∧ val (fneg a) = -val a
  ofNat : ∀ n : ℕ, n * u ≤ 1 → fin (fofNat n) ∧ val (fofNat n) = n
  cos : ∀ a, fin a → |val a| ≤ 8 → fin (fcos a) ∧ |val (fcos a) - Real.cos (val a)| ≤ 2 * u
  sin : ∀ a, fin a → |val a| ≤ 8 → fin (fsin a) ∧ |val (fsin a) - Real.sin (val a)| ≤ 2 * u
  pi : fin fpi ∧ |val fpi - Real.pi| ≤ u * Real.pi
  sqrt1_2 : fin sqrt1_2 ∧ |val sqrt1_2 - √2 / 2| ≤ u * (√2 / 2)
  h1x : fin h1x ∧ |val h1x - Real.cos (Real.pi / 8)| ≤ u * Real.cos (Real.pi / 8)
  h1y : fin h1y ∧ |val h1y - -Real.sin (Real.pi / 8)| ≤ u * Real.sin (Real.pi / 8)

/-- IEEE 754 binary64 with round to nearest: 53 bit significands, exponents -1022 to 1023 -/
abbrev Binary64 (F : Type) [FArith F] (val : F → ℝ) (fin : F → Prop) : Prop :=
  FloatLaws F val fin (1 / 2 ^ 53) (1 / 2 ^ 1075) ((2 - 1 / 2 ^ 52) * 2 ^ 1023)

/-- the complex number a pair of doubles stands for -/
def cval {F : Type} (val : F → ℝ) (a : Xmm F) : ℂ := ⟨val (a 0), val (a 1)⟩

/-- both parts are finite -/
def cfin {F : Type} (fin : F → Prop) (a : Xmm F) : Prop := fin (a 0) ∧ fin (a 1)

/-- number of roundings allowed for one factor `p` of the length -/
def primeWeight (p : ℕ) : ℕ := if p = 2 then 50 else if p = 3 then 140 else if p = 5 then 274 else p + 72

/-- number of roundings allowed for a transform of length `n`: the sum over the prime factors of `n`, with multiplicity.
`50 log₂ n` for powers of two, at most `70 n` for every length. -/
def errWeight (n : ℕ) : ℕ := (n.primeFactorsList.map primeWeight).sum

/-- number of roundings allowed for one factor `p` of the length, errors measured in the 2-norm -/
def primeWeight2 (p : ℕ) : ℕ :=
  if p = 2 then 55 else if p = 3 then 202 else if p = 5 then 540 else (p + 33) * (Nat.sqrt p + 1) + 40

/-- the same for a transform of length `n`: `55 log₂ n` for powers of two -/
def errWeight2 (n : ℕ) : ℕ := (n.primeFactorsList.map primeWeight2).sum

/-- 2-norm of the first `n` entries -/
noncomputable def norm2 (n : ℕ) (x : ℕ → ℂ) : ℝ := √(∑ t ∈ Finset.range n, ‖x t‖ ^ 2)

/-- normalisation of a transform of length `n` -/
noncomputable def Entry.factor (n : ℕ) : Entry → ℝ
  | .fwd | .fwdn | .invn => 1 / n
  | .fwdu | .invu => 1 / √n
  | .fwd0 | .inv | .inv0 => 1

/-- what a transform of length `n` is supposed to compute: the normalised discrete Fourier transform or its inverse -/
noncomputable def Entry.exact (n : ℕ) (e : Entry) (x : ℕ → ℂ) (k : ℕ) : ℂ :=
  match e with
  | .fwd | .fwd0 | .fwdu | .fwdn => e.factor n * Spec.dft n x k
  | .inv | .inv0 | .invu | .invn => e.factor n * Spec.idft n x k

/-- normalisation of a cosine transform of length `n` -/
noncomputable def DctEntry.factor (n : ℕ) : DctEntry → ℝ
  | .fwd | .fwdn | .invn => 1 / n
  | .fwd0 | .inv | .inv0 => 1

/-- what a cosine transform of length `n` is supposed to compute: the normalised DCT-II or DCT-III -/
noncomputable def DctEntry.exact (n : ℕ) (e : DctEntry) (r : ℕ → ℝ) (k : ℕ) : ℝ :=
  match e with
  | .fwd | .fwd0 | .fwdn => e.factor n * Spec.dct n r k
  | .inv | .inv0 | .invn => e.factor n * Spec.dct3 n r k

end OTFFT
