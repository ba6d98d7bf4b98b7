/-
Arithmetic interface of the modelled code.

`DArith F` is `double`, `PZ F V` is what a SIMD value (xmm / ymm / emm, or one lane of it) offers,
`CArith F C` is one complex number.  The classes carry *no laws*: everything proved without an
assumption on the instance holds for every rounding behaviour.
-/
import Mathlib.Analysis.SpecialFunctions.Trigonometric.Basic
import Mathlib.Analysis.SpecialFunctions.Sqrt
import Mathlib.Data.Complex.Basic

namespace OTFFT

/-- Operations on `double` used by the code (`cos`, `sin`, `sqrt` from the C library).
(the type `double` and the functions of <cmath> the code calls: src/otfft_misc.h:161-203, src/otfft_algo.cpp:225-277, 519-537) -/
class DArith (F : Type) where
  fadd : F → F → F
  fsub : F → F → F
  fmul : F → F → F
  fdiv : F → F → F
  fneg : F → F
  fsqrt : F → F
  fcos : F → F
  fsin : F → F
  fpi : F
  fofNat : Nat → F

/-- Operations on SIMD values, lane-wise complex (src/otfft_misc.h:228-1862).
`scl r` is `mulpd` by the vector all of whose components are `r`. -/
class PZ (F : outParam Type) (V : Type) where
  addpz : V → V → V
  subpz : V → V → V
  mulpz : V → V → V
  /-- complex conjugate (src/otfft_misc.h:288) -/
  cnjpz : V → V
  /-- times `i` (src/otfft_misc.h:294) -/
  jxpz : V → V
  /-- times exp(+iπ/4) (src/otfft_misc.h:405, 449, 648) -/
  v8xpz : V → V
  /-- times exp(-iπ/4) (src/otfft_misc.h:463, 655) -/
  w8xpz : V → V
  /-- times exp(-iπ/8) (src/otfft_misc.h:471) -/
  h1xpz : V → V
  /-- times exp(-3iπ/8) (src/otfft_misc.h:478) -/
  h3xpz : V → V
  /-- times exp(+iπ/8) (src/otfft_misc.h:485) -/
  hfxpz : V → V
  /-- times exp(+3iπ/8) (src/otfft_misc.h:492) -/
  hdxpz : V → V
  scl : F → V → V

/-- One complex number: SIMD lane operations plus the scalar class `complex_t`
(inc/otfft_complex.h:76-222). -/
class CArith (F : outParam Type) (C : Type) extends PZ F C where
  cmk : F → F → C
  re : C → F
  im : C → F
  /-- `operator*(complex_t, complex_t)` (inc/otfft_complex.h:197-200) -/
  cmul : C → C → C
  /-- component-wise product of two xmm values (`mulpd`, src/otfft_misc.h:323) -/
  mulpd : C → C → C
  /-- `std::polar(1.0, theta)` (`expj`, inc/otfft_complex.h:218-222) -/
  expj : F → C

export DArith (fadd fsub fmul fdiv fneg fsqrt fcos fsin fpi fofNat)
export PZ (addpz subpz mulpz cnjpz jxpz v8xpz w8xpz h1xpz h3xpz hfxpz hdxpz scl)

/-- A SIMD register of `L` complex lanes computes lane by lane.
(a register type of `L` complex numbers, src/otfft_misc.h:694-1862) -/
instance PZ.lanes {F C : Type} [PZ F C] (L : Nat) : PZ F (Fin L → C) where
  addpz a b := fun l => addpz (a l) (b l)
  subpz a b := fun l => subpz (a l) (b l)
  mulpz a b := fun l => mulpz (a l) (b l)
  cnjpz a := fun l => cnjpz (a l)
  jxpz a := fun l => jxpz (a l)
  v8xpz a := fun l => v8xpz (a l)
  w8xpz a := fun l => w8xpz (a l)
  h1xpz a := fun l => h1xpz (a l)
  h3xpz a := fun l => h3xpz (a l)
  hfxpz a := fun l => hfxpz (a l)
  hdxpz a := fun l => hdxpz (a l)
  scl r a := fun l => scl r (a l)

/-- `enum scaling_mode` (src/otfft_misc.h:46) -/
inductive ScaleMode where
  | scale_1 | scale_unitary | scale_length
deriving DecidableEq, Repr

/-- `SqrtAux a x y r`: the recursion `sqrt_aux(a, x, y)` returns `r` (src/otfft_misc.h:68-71). `x == y` is equality: the
numbers in it are positive and finite. -/
inductive SqrtAux {F : Type} [DArith F] (a : F) : F → F → F → Prop
  | stop (x : F) : SqrtAux a x x x
  | step {x y r : F} : x ≠ y → SqrtAux a (fdiv (fadd x (fdiv a x)) (fofNat 2)) x r → SqrtAux a x y r

/-- `mysqrt(a)` returns `r` (src/otfft_misc.h:73) -/
def IsMySqrt {F : Type} [DArith F] (a r : F) : Prop := SqrtAux a (fdiv a (fofNat 2)) a r

open Classical in
/-- The value of the constant expression `mysqrt(a)` (src/otfft_misc.h:68-73). Simplification: where the recursion does not
end, the compiler rejects the program; here the value is then the square root. (C59: the recursion ends for all the
arguments the library uses. In exact arithmetic it need not end, its limit is the square root.) -/
noncomputable def mysqrt {F : Type} [DArith F] (a : F) : F := if h : ∃ r, IsMySqrt a r then h.choose else fsqrt a

/-- `scalepz<N,mode>`, `scalepz2<N,mode>` (src/otfft_misc.h:334-343, 808-817). -/
noncomputable def scalepz {F V : Type} [DArith F] [PZ F V] (N : Nat) (mode : ScaleMode) (z : V) : V :=
  match mode with
  | .scale_1 => z
  | .scale_unitary => scl (fdiv (fofNat 1) (mysqrt (fofNat N))) z
  | .scale_length => scl (fdiv (fofNat 1) (fofNat N)) z

/-- `catlo(ax, by)`: low lanes of both (src/otfft_misc.h:884-888). -/
def catlo {C : Type} (a b : Fin 2 → C) : Fin 2 → C := ![a 0, b 0]
/-- `cathi(ax, by)`: high lanes of both (src/otfft_misc.h:890-894). -/
def cathi {C : Type} (a b : Fin 2 → C) : Fin 2 → C := ![a 1, b 1]

/-! ### The exact instance -/

noncomputable instance : DArith ℝ where
  fadd a b := a + b
  fsub a b := a - b
  fmul a b := a * b
  fdiv a b := a / b
  fneg a := -a
  fsqrt := Real.sqrt
  fcos := Real.cos
  fsin := Real.sin
  fpi := Real.pi
  fofNat n := n

noncomputable instance : CArith ℝ ℂ where
  addpz a b := a + b
  subpz a b := a - b
  mulpz a b := a * b
  cnjpz a := (starRingEnd ℂ) a
  jxpz a := Complex.I * a
  v8xpz a := Complex.exp (Complex.I * (Real.pi / 4)) * a
  w8xpz a := Complex.exp (-Complex.I * (Real.pi / 4)) * a
  h1xpz a := Complex.exp (-Complex.I * (Real.pi / 8)) * a
  h3xpz a := Complex.exp (-Complex.I * (3 * Real.pi / 8)) * a
  hfxpz a := Complex.exp (Complex.I * (Real.pi / 8)) * a
  hdxpz a := Complex.exp (Complex.I * (3 * Real.pi / 8)) * a
  scl r a := (r : ℂ) * a
  cmk a b := ⟨a, b⟩
  re a := a.re
  im a := a.im
  cmul a b := a * b
  mulpd a b := ⟨a.re * b.re, a.im * b.im⟩
  expj t := Complex.exp (t * Complex.I)

end OTFFT
