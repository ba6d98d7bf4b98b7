/-
Member functions of `complex_t` that write through references (inc/otfft_complex.h:76-121), and the functions on
`complex_t` that are not in `Model/Simd` (inc/otfft_complex.h:155-165).
-/
import Verif.Model.Simd
import Mathlib.Analysis.SpecialFunctions.Complex.Arg

namespace OTFFT

/-- A memory of doubles. A `complex_t` at address `a` is the two doubles at `a` (`Re`) and `a + 1` (`Im`). -/
abbrev DMem (F : Type) := Nat → F

namespace DMem
variable {F : Type}

/-- the `complex_t` at address `a` (inc/otfft_complex.h:78) -/
def cpx (m : DMem F) (a : Nat) : Xmm F := ![m a, m (a + 1)]

/-- store a double (an assignment to a member `Re` or `Im`, inc/otfft_complex.h:86-120) -/
def put (m : DMem F) (a : Nat) (x : F) : DMem F := fun l => if l = a then x else m l

variable [FArith F]

/-- `z += w` with `z` at `a`, `w` (a reference) at `b` (inc/otfft_complex.h:86-91) -/
def addAssign (a b : Nat) (m : DMem F) : DMem F :=
  let m := m.put a (fadd (m a) (m b))
  let m := m.put (a + 1) (fadd (m (a + 1)) (m (b + 1)))
  m

/-- `z -= w` (inc/otfft_complex.h:93-98) -/
def subAssign (a b : Nat) (m : DMem F) : DMem F :=
  let m := m.put a (fsub (m a) (m b))
  let m := m.put (a + 1) (fsub (m (a + 1)) (m (b + 1)))
  m

/-- `z *= x` for a double `x` at `c`, passed by reference (inc/otfft_complex.h:100-105) -/
def scaleAssign (a c : Nat) (m : DMem F) : DMem F :=
  let m := m.put a (fmul (m a) (m c))
  let m := m.put (a + 1) (fmul (m (a + 1)) (m c))
  m

/-- `z /= x` for a double `x` at `c`, passed by reference (inc/otfft_complex.h:107-112) -/
def divAssign (a c : Nat) (m : DMem F) : DMem F :=
  let m := m.put a (fdiv (m a) (m c))
  let m := m.put (a + 1) (fdiv (m (a + 1)) (m c))
  m

/-- `z *= w` (inc/otfft_complex.h:114-120) -/
def mulAssign (a b : Nat) (m : DMem F) : DMem F :=
  let tmp := fsub (fmul (m a) (m b)) (fmul (m (a + 1)) (m (b + 1)))
  let m := m.put (a + 1) (fadd (fmul (m a) (m (b + 1))) (fmul (m (a + 1)) (m b)))
  let m := m.put a tmp
  m

end DMem

variable {F : Type} [FArith F]

/-- `proj(z)` (inc/otfft_complex.h:160-165) -/
def Cpx.proj (z : Xmm F) : Xmm F :=
  let den := fadd (Cpx.norm z) (fofNat 1)
  ![fdiv (fmul (fofNat 2) (z 0)) den, fdiv (fmul (fofNat 2) (z 1)) den]

/-- `arg(z)` (inc/otfft_complex.h:155-159) in exact arithmetic: `atan2(z.Im, z.Re)` -/
noncomputable def Cpx.arg (z : Xmm ℝ) : ℝ := Complex.arg ⟨z 0, z 1⟩

/-- `complex_t(x)` (inc/otfft_complex.h:81): implicit conversion of a double -/
def Cpx.ofDouble (x : F) : Xmm F := ![x, fofNat 0]

/-- `complex_t()` (inc/otfft_complex.h:80) -/
def Cpx.zero : Xmm F := ![fofNat 0, fofNat 0]

end OTFFT
