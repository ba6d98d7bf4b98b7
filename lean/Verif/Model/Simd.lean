/-
The SIMD primitives (src/otfft_misc.h:227-1860) of every instruction set, and the scalar class `complex_t`
(inc/otfft_complex.h:76-222), on top of the intrinsics.

A register is a vector of doubles. The intrinsics are modelled after Intel's documentation; they are the trusted part
here. Nothing is assumed about `double` arithmetic.
-/
import Verif.Model.Arith
import Mathlib.Data.Fin.VecNotation

namespace OTFFT

/-- `double` with fused multiply-add and the constants the primitives use. -/
class FArith (F : Type) extends DArith F where
  /-- `a*b + c` rounded once -/
  ffma : F → F → F → F
  /-- `a*b - c` rounded once -/
  ffms : F → F → F → F
  /-- `M_SQRT1_2` -/
  sqrt1_2 : F
  /-- `H1X` (src/otfft_misc.h:43) -/
  h1x : F
  /-- `H1Y` (src/otfft_misc.h:44) -/
  h1y : F

export FArith (ffma ffms sqrt1_2 h1x h1y)

/-! The literals (as exact decimal fractions; the compiler rounds them to `double`) -/

/-- `M_SQRT1_2` (src/otfft_misc.h:36-38) -/
def litSqrt1_2 : ℚ := 0.707106781186547524400844362104849039
/-- `H1X` (src/otfft_misc.h:43) -/
def litH1X : ℚ := 0.923879532511286762010323247995557949
/-- `H1Y` (src/otfft_misc.h:44) -/
def litH1Y : ℚ := -0.382683432365089757574419179753100195
/-- `M_PI` (src/otfft_misc.h:28-30) -/
def litPi : ℚ := 3.14159265358979323846264338327950288

/-- a register of `k` doubles; component 0 is the one at the lowest address
(`__m128d`, `__m256d`, `__m512d`, src/otfft_misc.h:236, 700, 1171) -/
abbrev Reg (k : Nat) (F : Type) := Fin k → F

/-- `xmm`: `__m128d`, or `struct { double Re, Im; }` (src/otfft_misc.h:236, 507) -/
abbrev Xmm (F : Type) := Reg 2 F

namespace Intrin
variable {F : Type} [FArith F]

/-! ### 128 bit -/

/-- `_mm_add_pd`, `_mm256_add_pd`, `_mm512_add_pd` (src/otfft_misc.h:316, Intel intrinsic `_mm*_add_pd`) -/
def add_pd {k : Nat} (a b : Reg k F) : Reg k F := fun i => fadd (a i) (b i)
/-- `_mm_sub_pd`, … (src/otfft_misc.h:321) -/
def sub_pd {k : Nat} (a b : Reg k F) : Reg k F := fun i => fsub (a i) (b i)
/-- `_mm_mul_pd`, … (src/otfft_misc.h:326) -/
def mul_pd {k : Nat} (a b : Reg k F) : Reg k F := fun i => fmul (a i) (b i)
/-- `_mm_div_pd`, … (src/otfft_misc.h:331) -/
def div_pd {k : Nat} (a b : Reg k F) : Reg k F := fun i => fdiv (a i) (b i)
/-- `_mm_xor_pd(m, ·)`, … for a constant `m` all of whose components are `0.0` or `-0.0` (`true`): the only bit that can
be set in them is the sign bit. (src/otfft_misc.h:292, 304) -/
def xor_pd {k : Nat} (m : Reg k Bool) (a : Reg k F) : Reg k F := fun i => if m i then fneg (a i) else a i
/-- `_mm_addsub_pd`, `_mm256_addsub_pd`: even components are subtracted, odd ones added
(src/otfft_misc.h:393, 410) -/
def addsub_pd {k : Nat} (a b : Reg k F) : Reg k F :=
  fun i => if i.val % 2 = 0 then fsub (a i) (b i) else fadd (a i) (b i)
/-- `_mm_fmaddsub_pd`, …: `a*b - c` in even components, `a*b + c` in odd ones
(src/otfft_misc.h:391, 794, 1236) -/
def fmaddsub_pd {k : Nat} (a b c : Reg k F) : Reg k F :=
  fun i => if i.val % 2 = 0 then ffms (a i) (b i) (c i) else ffma (a i) (b i) (c i)

/-- `_mm_shuffle_pd(a, b, imm)` (src/otfft_misc.h:298, 309) -/
def mm_shuffle_pd (a b : Reg 2 F) (imm : Nat) : Reg 2 F :=
  ![if imm.testBit 0 then a 1 else a 0, if imm.testBit 1 then b 1 else b 0]
/-- `_mm_unpacklo_pd` (src/otfft_misc.h:387) -/
def mm_unpacklo_pd (a b : Reg 2 F) : Reg 2 F := ![a 0, b 0]
/-- `_mm_unpackhi_pd` (src/otfft_misc.h:388) -/
def mm_unpackhi_pd (a b : Reg 2 F) : Reg 2 F := ![a 1, b 1]
/-- `_mm_hadd_pd` (src/otfft_misc.h:381) -/
def mm_hadd_pd (a b : Reg 2 F) : Reg 2 F := ![fadd (a 0) (a 1), fadd (b 0) (b 1)]
/-- `_mm_add_sd`: only component 0 is added (src/otfft_misc.h:427) -/
def mm_add_sd (a b : Reg 2 F) : Reg 2 F := ![fadd (a 0) (b 0), a 1]

/-! ### 256 bit -/

/-- `_mm256_shuffle_pd(a, b, imm)`: within each 128 bit half (src/otfft_misc.h:757) -/
def mm256_shuffle_pd (a b : Reg 4 F) (imm : Nat) : Reg 4 F :=
  ![if imm.testBit 0 then a 1 else a 0, if imm.testBit 1 then b 1 else b 0,
    if imm.testBit 2 then a 3 else a 2, if imm.testBit 3 then b 3 else b 2]
/-- `_mm256_unpacklo_pd` (src/otfft_misc.h:790) -/
def mm256_unpacklo_pd (a b : Reg 4 F) : Reg 4 F := ![a 0, b 0, a 2, b 2]
/-- `_mm256_unpackhi_pd` (src/otfft_misc.h:791) -/
def mm256_unpackhi_pd (a b : Reg 4 F) : Reg 4 F := ![a 1, b 1, a 3, b 3]
/-- the half of `a`, `b` a two bit field of the immediate of `_mm256_permute2f128_pd` selects
(one half of a 256-bit register, src/otfft_misc.h:721) -/
def half128 (a b : Reg 4 F) : Nat → Reg 2 F
  | 0 => ![a 0, a 1]
  | 1 => ![a 2, a 3]
  | 2 => ![b 0, b 1]
  | _ => ![b 2, b 3]
/-- `_mm256_permute2f128_pd(a, b, imm)`; simplification: bits 3 and 7 of `imm` (zero the half) are never set by the
code. (src/otfft_misc.h:721, 880) -/
def mm256_permute2f128_pd (a b : Reg 4 F) (imm : Nat) : Reg 4 F :=
  let lo := half128 a b (imm % 4)
  let hi := half128 a b (imm / 16 % 4)
  ![lo 0, lo 1, hi 0, hi 1]
/-- `_mm256_broadcast_pd` (src/otfft_misc.h:866) -/
def mm256_broadcast_pd (a : Reg 2 F) : Reg 4 F := ![a 0, a 1, a 0, a 1]
/-- `_mm256_castpd128_pd256`: the upper half is undefined, here `u` (src/otfft_misc.h:719) -/
def mm256_castpd128_pd256 (u a : Reg 2 F) : Reg 4 F := ![a 0, a 1, u 0, u 1]
/-- `_mm256_insertf128_pd(a, b, imm)` (src/otfft_misc.h:881) -/
def mm256_insertf128_pd (a : Reg 4 F) (b : Reg 2 F) (imm : Nat) : Reg 4 F :=
  if imm.testBit 0 then ![a 0, a 1, b 0, b 1] else ![b 0, b 1, a 2, a 3]
/-- `_mm256_castpd256_pd128` (src/otfft_misc.h:919) -/
def mm256_castpd256_pd128 (a : Reg 4 F) : Reg 2 F := ![a 0, a 1]
/-- `_mm256_extractf128_pd(a, imm)` (src/otfft_misc.h:924) -/
def mm256_extractf128_pd (a : Reg 4 F) (imm : Nat) : Reg 2 F := if imm.testBit 0 then ![a 2, a 3] else ![a 0, a 1]
/-- `_mm256_hadd_pd` (src/otfft_misc.h:804) -/
def mm256_hadd_pd (a b : Reg 4 F) : Reg 4 F :=
  ![fadd (a 0) (a 1), fadd (b 0) (b 1), fadd (a 2) (a 3), fadd (b 2) (b 3)]

/-! ### 512 bit -/

/-- `_mm512_shuffle_pd(a, b, imm)` (src/otfft_misc.h:1206) -/
def mm512_shuffle_pd (a b : Reg 8 F) (imm : Nat) : Reg 8 F :=
  ![if imm.testBit 0 then a 1 else a 0, if imm.testBit 1 then b 1 else b 0,
    if imm.testBit 2 then a 3 else a 2, if imm.testBit 3 then b 3 else b 2,
    if imm.testBit 4 then a 5 else a 4, if imm.testBit 5 then b 5 else b 4,
    if imm.testBit 6 then a 7 else a 6, if imm.testBit 7 then b 7 else b 6]
/-- `_mm512_unpacklo_pd` (src/otfft_misc.h:1233) -/
def mm512_unpacklo_pd (a b : Reg 8 F) : Reg 8 F := ![a 0, b 0, a 2, b 2, a 4, b 4, a 6, b 6]
/-- `_mm512_unpackhi_pd` (src/otfft_misc.h:1234) -/
def mm512_unpackhi_pd (a b : Reg 8 F) : Reg 8 F := ![a 1, b 1, a 3, b 3, a 5, b 5, a 7, b 7]
/-- `_mm512_broadcast_f64x2` (src/otfft_misc.h:1299) -/
def mm512_broadcast_f64x2 (a : Reg 2 F) : Reg 8 F := ![a 0, a 1, a 0, a 1, a 0, a 1, a 0, a 1]

end Intrin

open Intrin

/-! ### One complex number: `xmm` -/

/-- The primitives on `xmm`. (the functions of src/otfft_misc.h:244-497) -/
structure XmmOps (F : Type) where
  cnjpz : Xmm F → Xmm F
  jxpz : Xmm F → Xmm F
  negpz : Xmm F → Xmm F
  mjxpz : Xmm F → Xmm F
  addpz : Xmm F → Xmm F → Xmm F
  subpz : Xmm F → Xmm F → Xmm F
  mulpd : Xmm F → Xmm F → Xmm F
  divpd : Xmm F → Xmm F → Xmm F
  haddpz : Xmm F → Xmm F → Xmm F
  mulpz : Xmm F → Xmm F → Xmm F
  divpz : Xmm F → Xmm F → Xmm F
  v8xpz : Xmm F → Xmm F
  w8xpz : Xmm F → Xmm F
  h1xpz : Xmm F → Xmm F
  h3xpz : Xmm F → Xmm F
  hfxpz : Xmm F → Xmm F
  hdxpz : Xmm F → Xmm F

/-- Which instruction set extensions a file is compiled for (`__SSE2__`, `__SSE3__`, `__FMA__`, `__AVX__`,
`__AVX512F__ && __AVX512DQ__`). (the macros tested in src/otfft_misc.h:227, 365, 694, 1165) -/
structure Target where
  sse2 : Bool
  sse3 : Bool
  fma : Bool
  avx : Bool
  avx512 : Bool
deriving DecidableEq

variable {F : Type} [FArith F]

namespace Sse
/-- `cnjpz` (src/otfft_misc.h:288-293) -/
def cnjpz (xy : Xmm F) : Xmm F := xor_pd ![false, true] xy
/-- `jxpz` (294-299) -/
def jxpz (xy : Xmm F) : Xmm F := let xmy := cnjpz xy; mm_shuffle_pd xmy xmy 1
/-- `negpz` (300-305) -/
def negpz (xy : Xmm F) : Xmm F := xor_pd ![true, true] xy
/-- `mjxpz` (306-311) -/
def mjxpz (xy : Xmm F) : Xmm F := cnjpz (mm_shuffle_pd xy xy 1)
/-- `w8xpz` (463-469) -/
def w8xpz (xy : Xmm F) : Xmm F :=
  let ymx := cnjpz (mm_shuffle_pd xy xy 1)
  mul_pd ![sqrt1_2, sqrt1_2] (add_pd xy ymx)

/-- the functions after `#endif // __SSE3__` and the common ones, given those that depend on `__SSE3__`
(src/otfft_misc.h:288-332, 461-497) -/
def ops (haddpz mulpz divpz : Xmm F → Xmm F → Xmm F) (v8xpz : Xmm F → Xmm F) : XmmOps F where
  cnjpz := cnjpz
  jxpz := jxpz
  negpz := negpz
  mjxpz := mjxpz
  addpz := add_pd
  subpz := sub_pd
  mulpd := mul_pd
  divpd := div_pd
  haddpz := haddpz
  mulpz := mulpz
  divpz := divpz
  v8xpz := v8xpz
  w8xpz := w8xpz
  h1xpz := fun xy => mulpz ![h1x, h1y] xy
  h3xpz := fun xy => mulpz ![fneg h1y, fneg h1x] xy
  hfxpz := fun xy => mulpz ![h1x, fneg h1y] xy
  hdxpz := fun xy => mulpz ![fneg h1y, h1x] xy

end Sse

namespace Sse3
/-- `mulpz` with `__SSE3__`, with or without `__FMA__` (src/otfft_misc.h:384-396) -/
def mulpz (fma : Bool) (ab xy : Xmm F) : Xmm F :=
  let aa := mm_unpacklo_pd ab ab
  let bb := mm_unpackhi_pd ab ab
  let yx := mm_shuffle_pd xy xy 1
  if fma then fmaddsub_pd aa xy (mul_pd bb yx) else addsub_pd (mul_pd aa xy) (mul_pd bb yx)
/-- `divpz` (397-404) -/
def divpz (fma : Bool) (ab xy : Xmm F) : Xmm F :=
  let x2y2 := mul_pd xy xy
  let r2r2 := mm_hadd_pd x2y2 x2y2
  div_pd (mulpz fma ab (Sse.cnjpz xy)) r2r2
/-- `v8xpz` (405-412) -/
def v8xpz (xy : Xmm F) : Xmm F :=
  let yx := mm_shuffle_pd xy xy 1
  mul_pd ![sqrt1_2, sqrt1_2] (addsub_pd xy yx)

/-- src/otfft_misc.h:365-413 -/
def ops (fma : Bool) : XmmOps F := Sse.ops mm_hadd_pd (mulpz fma) (divpz fma) v8xpz
end Sse3

namespace Sse2
/-- `haddpz` without `__SSE3__` (src/otfft_misc.h:422-431) -/
def haddpz (ab xy : Xmm F) : Xmm F :=
  let ba := mm_shuffle_pd ab ab 1
  let yx := mm_shuffle_pd xy xy 1
  let apb := mm_add_sd ab ba
  let xpy := mm_add_sd xy yx
  mm_shuffle_pd apb xpy 0
/-- `mulpz` (432-439) -/
def mulpz (ab xy : Xmm F) : Xmm F :=
  let aa := mm_unpacklo_pd ab ab
  let bb := mm_unpackhi_pd ab ab
  add_pd (mul_pd aa xy) (mul_pd bb (Sse.jxpz xy))
/-- `divpz` (440-448) -/
def divpz (ab xy : Xmm F) : Xmm F :=
  let x2y2 := mul_pd xy xy
  let y2x2 := mm_shuffle_pd x2y2 x2y2 1
  let r2r2 := add_pd x2y2 y2x2
  div_pd (mulpz ab (Sse.cnjpz xy)) r2r2
/-- `v8xpz` (449-455) -/
def v8xpz (xy : Xmm F) : Xmm F := mul_pd ![sqrt1_2, sqrt1_2] (add_pd xy (Sse.jxpz xy))

/-- src/otfft_misc.h:415-456 -/
def ops : XmmOps F := Sse.ops haddpz mulpz divpz v8xpz
end Sse2

namespace NoSse
/-- `mulpz` of the emulation (src/otfft_misc.h:625-630) -/
def mulpz (a b : Xmm F) : Xmm F :=
  ![fsub (fmul (a 0) (b 0)) (fmul (a 1) (b 1)), fadd (fmul (a 0) (b 1)) (fmul (a 1) (b 0))]
/-- `cnjpz` (546-550) -/
def cnjpz (z : Xmm F) : Xmm F := ![z 0, fneg (z 1)]
/-- `divpz` (632-639) -/
def divpz (a b : Xmm F) : Xmm F :=
  let b2 := fadd (fmul (b 0) (b 0)) (fmul (b 1) (b 1))
  let acb := mulpz a (cnjpz b)
  ![fdiv (acb 0) b2, fdiv (acb 1) b2]

/-- `xmm` without `__SSE2__` (src/otfft_misc.h:500-690) -/
def ops : XmmOps F where
  cnjpz := cnjpz
  jxpz z := ![fneg (z 1), z 0]
  negpz z := ![fneg (z 0), fneg (z 1)]
  mjxpz z := ![z 1, fneg (z 0)]
  addpz a b := ![fadd (a 0) (b 0), fadd (a 1) (b 1)]
  subpz a b := ![fsub (a 0) (b 0), fsub (a 1) (b 1)]
  mulpd a b := ![fmul (a 0) (b 0), fmul (a 1) (b 1)]
  divpd a b := ![fdiv (a 0) (b 0), fdiv (a 1) (b 1)]
  haddpz ab xy := ![fadd (ab 0) (ab 1), fadd (xy 0) (xy 1)]
  mulpz := mulpz
  divpz := divpz
  v8xpz z := ![fmul sqrt1_2 (fsub (z 0) (z 1)), fmul sqrt1_2 (fadd (z 0) (z 1))]
  w8xpz z := ![fmul sqrt1_2 (fadd (z 0) (z 1)), fmul sqrt1_2 (fsub (z 1) (z 0))]
  h1xpz xy := mulpz ![h1x, h1y] xy
  h3xpz xy := mulpz ![fneg h1y, fneg h1x] xy
  hfxpz xy := mulpz ![h1x, fneg h1y] xy
  hdxpz xy := mulpz ![fneg h1y, h1x] xy
end NoSse

/-- the `xmm` primitives a compilation uses (`#if` at src/otfft_misc.h:227, 365) -/
def Target.xmm (F : Type) [FArith F] (i : Target) : XmmOps F :=
  if i.sse2 then (if i.sse3 then Sse3.ops i.fma else Sse2.ops) else NoSse.ops

/-! ### Wider registers -/

/-- The primitives on a register type `R` of `L` complex numbers; `lanes` and `pack` say how complex numbers are laid
out in it. (the functions of src/otfft_misc.h:694-1862) -/
structure VecOps (F : Type) (L : Nat) (R : Type) where
  /-- complex number `l` of the register -/
  lanes : R → Fin L → Xmm F
  /-- `getpz2(z)` …: load doubles `z[0].Re, z[0].Im, z[1].Re, …` -/
  get : (Nat → F) → R
  /-- `setpz2(z, x)` …: the doubles written, in order -/
  set : R → Nat → F
  cnj : R → R
  jx : R → R
  add : R → R → R
  sub : R → R → R
  muld : R → R → R
  divd : R → R → R
  mul : R → R → R
  v8x : R → R
  w8x : R → R
  h1x : R → R
  h3x : R → R
  hfx : R → R
  hdx : R → R
  /-- `duppz2(x)` … -/
  dup : Xmm F → R
  /-- the register all of whose doubles are the argument (the constant `sv` of `scalepz2` …) -/
  splat : F → R

/-- `xmm` as a register of one complex number (`getpz`, `setpz`: src/otfft_misc.h:244-281, 516-540) -/
def XmmOps.vec (X : XmmOps F) : VecOps F 1 (Xmm F) where
  lanes r _ := r
  get m := ![m 0, m 1]
  set r i := if i = 0 then r 0 else r 1
  cnj := X.cnjpz
  jx := X.jxpz
  add := X.addpz
  sub := X.subpz
  muld := X.mulpd
  divd := X.divpd
  mul := X.mulpz
  v8x := X.v8xpz
  w8x := X.w8xpz
  h1x := X.h1xpz
  h3x := X.h3xpz
  hfx := X.hfxpz
  hdx := X.hdxpz
  dup x := x
  splat r := ![r, r]

namespace Avx
/-- `cnjpz2` (src/otfft_misc.h:747-752) -/
def cnjpz2 (xy : Reg 4 F) : Reg 4 F := xor_pd ![false, true, false, true] xy
/-- `jxpz2` (753-758) -/
def jxpz2 (xy : Reg 4 F) : Reg 4 F := let xmy := cnjpz2 xy; mm256_shuffle_pd xmy xmy 5
/-- `mulpz2` (787-799) -/
def mulpz2 (fma : Bool) (ab xy : Reg 4 F) : Reg 4 F :=
  let aa := mm256_unpacklo_pd ab ab
  let bb := mm256_unpackhi_pd ab ab
  let yx := mm256_shuffle_pd xy xy 5
  if fma then fmaddsub_pd aa xy (mul_pd bb yx) else addsub_pd (mul_pd aa xy) (mul_pd bb yx)
/-- `divpz2` (800-807) -/
def divpz2 (fma : Bool) (ab xy : Reg 4 F) : Reg 4 F :=
  let x2y2 := mul_pd xy xy
  let r2r2 := mm256_hadd_pd x2y2 x2y2
  div_pd (mulpz2 fma ab (cnjpz2 xy)) r2r2
/-- `negpz2` (759-764) -/
def negpz2 (xy : Reg 4 F) : Reg 4 F := xor_pd ![true, true, true, true] xy
/-- `v8xpz2` (819-826) -/
def v8xpz2 (xy : Reg 4 F) : Reg 4 F :=
  let yx := mm256_shuffle_pd xy xy 5
  mul_pd ![sqrt1_2, sqrt1_2, sqrt1_2, sqrt1_2] (addsub_pd xy yx)
/-- `w8xpz2` (827-834) -/
def w8xpz2 (xy : Reg 4 F) : Reg 4 F :=
  let ymx := cnjpz2 (mm256_shuffle_pd xy xy 5)
  mul_pd ![sqrt1_2, sqrt1_2, sqrt1_2, sqrt1_2] (add_pd xy ymx)

/-- `ymm` with `__AVX__` (src/otfft_misc.h:694-874) -/
def ops (fma : Bool) : VecOps F 2 (Reg 4 F) where
  lanes r := ![![r 0, r 1], ![r 2, r 3]]
  get m := fun i => m i.val
  set r i := if h : i < 4 then r ⟨i, h⟩ else r 3
  cnj := cnjpz2
  jx := jxpz2
  add := add_pd
  sub := sub_pd
  muld := mul_pd
  divd := div_pd
  mul := mulpz2 fma
  v8x := v8xpz2
  w8x := w8xpz2
  h1x xy := mulpz2 fma ![h1x, h1y, h1x, h1y] xy
  h3x xy := mulpz2 fma ![fneg h1y, fneg h1x, fneg h1y, fneg h1x] xy
  hfx xy := mulpz2 fma ![h1x, fneg h1y, h1x, fneg h1y] xy
  hdx xy := mulpz2 fma ![fneg h1y, h1x, fneg h1y, h1x] xy
  dup := mm256_broadcast_pd
  splat r := ![r, r, r, r]

/-- `cmplx2(x, y)` (713-726) -/
def cmplx2 (x y : Xmm F) : Reg 4 F := ![x 0, x 1, y 0, y 1]
/-- `cat(a, b)` (875-883); `u` is the undefined upper half of the cast -/
def cat (u a b : Xmm F) : Reg 4 F := mm256_insertf128_pd (mm256_castpd128_pd256 u a) b 1
/-- `catlo(ax, by)` (884-889) -/
def catlo (ax b_y : Reg 4 F) : Reg 4 F := mm256_permute2f128_pd ax b_y 0x20
/-- `cathi(ax, by)` (890-895) -/
def cathi (ax b_y : Reg 4 F) : Reg 4 F := mm256_permute2f128_pd ax b_y 0x31
/-- `swaplohi(ab)` (896-901) -/
def swaplohi (ab : Reg 4 F) : Reg 4 F := mm256_permute2f128_pd ab ab 0x01
/-- `getlo` (916-920) -/
def getlo (a_b : Reg 4 F) : Xmm F := mm256_castpd256_pd128 a_b
/-- `gethi` (921-925) -/
def gethi (a_b : Reg 4 F) : Xmm F := mm256_extractf128_pd a_b 1
end Avx

/-- A register type made of two registers (`struct { xmm lo, hi; }`): `ymm` without `__AVX__`
(src/otfft_misc.h:942-1162), `zmm` without AVX-512 (1310-1447), `emm` (1454-1585), `amm` (1591-1722), `bmm`
(1728-1860). -/
def VecOps.pair {L : Nat} {R : Type} (V : VecOps F L R) : VecOps F (L + L) (R × R) where
  lanes r := Fin.append (V.lanes r.1) (V.lanes r.2)
  get m := (V.get m, V.get fun i => m (2 * L + i))
  set r i := if i < 2 * L then V.set r.1 i else V.set r.2 (i - 2 * L)
  cnj r := (V.cnj r.1, V.cnj r.2)
  jx r := (V.jx r.1, V.jx r.2)
  add a b := (V.add a.1 b.1, V.add a.2 b.2)
  sub a b := (V.sub a.1 b.1, V.sub a.2 b.2)
  muld a b := (V.muld a.1 b.1, V.muld a.2 b.2)
  divd a b := (V.divd a.1 b.1, V.divd a.2 b.2)
  mul a b := (V.mul a.1 b.1, V.mul a.2 b.2)
  v8x r := (V.v8x r.1, V.v8x r.2)
  w8x r := (V.w8x r.1, V.w8x r.2)
  h1x r := (V.h1x r.1, V.h1x r.2)
  h3x r := (V.h3x r.1, V.h3x r.2)
  hfx r := (V.hfx r.1, V.hfx r.2)
  hdx r := (V.hdx r.1, V.hdx r.2)
  dup x := (V.dup x, V.dup x)
  splat r := (V.splat r, V.splat r)

namespace Avx512
/-- `cnjpz4` (src/otfft_misc.h:1196-1201) -/
def cnjpz4 (xy : Reg 8 F) : Reg 8 F := xor_pd ![false, true, false, true, false, true, false, true] xy
/-- `jxpz4` (1202-1207) -/
def jxpz4 (xy : Reg 8 F) : Reg 8 F := let xmy := cnjpz4 xy; mm512_shuffle_pd xmy xmy 0x55
/-- `mulpz4` (1230-1237) -/
def mulpz4 (ab xy : Reg 8 F) : Reg 8 F :=
  let aa := mm512_unpacklo_pd ab ab
  let bb := mm512_unpackhi_pd ab ab
  let yx := mm512_shuffle_pd xy xy 0x55
  fmaddsub_pd aa xy (mul_pd bb yx)
/-- `v8xpz4` (1250-1258) -/
def v8xpz4 (xy : Reg 8 F) : Reg 8 F :=
  let myx := jxpz4 xy
  mul_pd (fun _ => sqrt1_2) (add_pd xy myx)
/-- `w8xpz4` (1259-1267) -/
def w8xpz4 (xy : Reg 8 F) : Reg 8 F :=
  let ymx := cnjpz4 (mm512_shuffle_pd xy xy 0x55)
  mul_pd (fun _ => sqrt1_2) (add_pd xy ymx)

/-- `zmm` with AVX-512 (src/otfft_misc.h:1165-1308) -/
def ops : VecOps F 4 (Reg 8 F) where
  lanes r := ![![r 0, r 1], ![r 2, r 3], ![r 4, r 5], ![r 6, r 7]]
  get m := fun i => m i.val
  set r i := if h : i < 8 then r ⟨i, h⟩ else r 7
  cnj := cnjpz4
  jx := jxpz4
  add := add_pd
  sub := sub_pd
  muld := mul_pd
  divd := div_pd
  mul := mulpz4
  v8x := v8xpz4
  w8x := w8xpz4
  h1x xy := mulpz4 ![h1x, h1y, h1x, h1y, h1x, h1y, h1x, h1y] xy
  h3x xy := mulpz4 ![fneg h1y, fneg h1x, fneg h1y, fneg h1x, fneg h1y, fneg h1x, fneg h1y, fneg h1x] xy
  hfx xy := mulpz4 ![h1x, fneg h1y, h1x, fneg h1y, h1x, fneg h1y, h1x, fneg h1y] xy
  hdx xy := mulpz4 ![fneg h1y, h1x, fneg h1y, h1x, fneg h1y, h1x, fneg h1y, h1x] xy
  dup := mm512_broadcast_f64x2
  splat r := fun _ => r
end Avx512

/-- `ymm` without `__AVX__` (src/otfft_misc.h:942-1162) -/
def ymmEmu (X : XmmOps F) : VecOps F 2 (Xmm F × Xmm F) := X.vec.pair

namespace YmmEmu
/-- `cmplx2(a, b)`, `cat(a, b)` (src/otfft_misc.h:960-965, 1101-1106) -/
def cat (a b : Xmm F) : Xmm F × Xmm F := (a, b)
/-- `catlo(ax, by)` (1108-1113) -/
def catlo (ax b_y : Xmm F × Xmm F) : Xmm F × Xmm F := (ax.1, b_y.1)
/-- `cathi(ax, by)` (1115-1120) -/
def cathi (ax b_y : Xmm F × Xmm F) : Xmm F × Xmm F := (ax.2, b_y.2)
/-- `swaplohi(ab)` (1122-1127) -/
def swaplohi (ab : Xmm F × Xmm F) : Xmm F × Xmm F := (ab.2, ab.1)
/-- `divpz2(a, b)` (1026-1031) -/
def divpz2 (X : XmmOps F) (a b : Xmm F × Xmm F) : Xmm F × Xmm F := (X.divpz a.1 b.1, X.divpz a.2 b.2)
end YmmEmu

/-! ### `complex_t` (inc/otfft_complex.h:76-222) -/

namespace Cpx
/-- `operator*(complex_t, complex_t)` (202-205) and `operator*=(complex_t)` (114-120) -/
def mul (a b : Xmm F) : Xmm F :=
  ![fsub (fmul (a 0) (b 0)) (fmul (a 1) (b 1)), fadd (fmul (a 0) (b 1)) (fmul (a 1) (b 0))]
/-- `operator+` (187-190), `operator+=` (86-91) -/
def add (a b : Xmm F) : Xmm F := ![fadd (a 0) (b 0), fadd (a 1) (b 1)]
/-- `operator-` (192-195), `operator-=` (93-98) -/
def sub (a b : Xmm F) : Xmm F := ![fsub (a 0) (b 0), fsub (a 1) (b 1)]
/-- `operator*(double, complex_t)` (197-200), `operator*=(double)` (100-105; the factors are swapped there) -/
def smul (a : F) (b : Xmm F) : Xmm F := ![fmul a (b 0), fmul a (b 1)]
/-- `operator/(complex_t, double)` (207-210), `operator/=(double)` (107-112) -/
def sdiv (a : Xmm F) (b : F) : Xmm F := ![fdiv (a 0) b, fdiv (a 1) b]
/-- `norm` (141-144) -/
def norm (z : Xmm F) : F := fadd (fmul (z 0) (z 0)) (fmul (z 1) (z 1))
/-- `abs` (151-154) -/
def abs (z : Xmm F) : F := fsqrt (norm z)
/-- `conj` (146-149) -/
def conj (z : Xmm F) : Xmm F := ![z 0, fneg (z 1)]
/-- `operator/(complex_t, complex_t)` (212-216) -/
def div (a b : Xmm F) : Xmm F := sdiv (mul a (conj b)) (norm b)
/-- `polar` (167-170) -/
def polar (rho theta : F) : Xmm F := ![fmul rho (fcos theta), fmul rho (fsin theta)]
/-- `jx` (172-175) -/
def jx (z : Xmm F) : Xmm F := ![fneg (z 1), z 0]
/-- `neg` (177-180) -/
def neg (z : Xmm F) : Xmm F := ![fneg (z 0), fneg (z 1)]
/-- `mjx` (182-185) -/
def mjx (z : Xmm F) : Xmm F := ![z 1, fneg (z 0)]
/-- `v8x` (src/otfft_misc.h:48-52) -/
def v8x (z : Xmm F) : Xmm F := ![fmul sqrt1_2 (fsub (z 0) (z 1)), fmul sqrt1_2 (fadd (z 0) (z 1))]
/-- `w8x` (src/otfft_misc.h:54-58) -/
def w8x (z : Xmm F) : Xmm F := ![fmul sqrt1_2 (fadd (z 0) (z 1)), fmul sqrt1_2 (fsub (z 1) (z 0))]
/-- `expj(theta)` (inc/otfft_complex.h:218-223): `std::polar(1.0, theta)`, which is (ρ cos θ, ρ sin θ) -/
def expj (theta : F) : Xmm F := polar (fofNat 1) theta
end Cpx

/-! ### weights from a quarter of a table -/

/-- `mylog2` (src/otfft_misc.h:75-78) -/
def mylog2 (N : Nat) : Nat := if N ≤ 1 then 0 else 1 + mylog2 (N / 2)

/-- `modq<N,s>(W, p)` (src/otfft_misc.h:80-97). Simplification: natural numbers; `s*p` does not overflow. -/
def modq (N s : Nat) (W : Nat → Xmm F) (p : Nat) : Xmm F :=
  let Nq := N / 4
  let log_Nq := mylog2 Nq
  let sp := s * p
  let q := sp >>> log_Nq
  let r := sp &&& (Nq - 1)
  let z := W r
  match q &&& 3 with
  | 0 => z
  | 1 => Cpx.mjx z
  | 2 => Cpx.neg z
  | 3 => Cpx.jx z
  | _ => ![fofNat 0, fofNat 0]

/-- `modqpz<N,s>(W, p)` (src/otfft_misc.h:345-362), the same simplification -/
def modqpz (X : XmmOps F) (N s : Nat) (W : Nat → Xmm F) (p : Nat) : Xmm F :=
  let Nq := N / 4
  let log_Nq := mylog2 Nq
  let sp := s * p
  let q := sp >>> log_Nq
  let r := sp &&& (Nq - 1)
  let x := W r
  match q &&& 3 with
  | 0 => x
  | 1 => X.mjxpz x
  | 2 => X.negpz x
  | 3 => X.jxpz x
  | _ => ![fofNat 0, fofNat 0]

/-- The arithmetic of the library in a compilation whose `xmm` primitives are `X`, on any type `C` of pairs of
doubles. (src/otfft_misc.h:244-497 as the arithmetic of the kernels) -/
@[instance_reducible] def XmmOps.arith (X : XmmOps F) {C : Type} (e : C ≃ Xmm F) : CArith F C where
  addpz a b := e.symm (X.addpz (e a) (e b))
  subpz a b := e.symm (X.subpz (e a) (e b))
  mulpz a b := e.symm (X.mulpz (e a) (e b))
  cnjpz a := e.symm (X.cnjpz (e a))
  jxpz a := e.symm (X.jxpz (e a))
  v8xpz a := e.symm (X.v8xpz (e a))
  w8xpz a := e.symm (X.w8xpz (e a))
  h1xpz a := e.symm (X.h1xpz (e a))
  h3xpz a := e.symm (X.h3xpz (e a))
  hfxpz a := e.symm (X.hfxpz (e a))
  hdxpz a := e.symm (X.hdxpz (e a))
  scl r a := e.symm (X.mulpd ![r, r] (e a))
  cmk a b := e.symm ![a, b]
  re a := e a 0
  im a := e a 1
  cmul a b := e.symm (Cpx.mul (e a) (e b))
  mulpd a b := e.symm (X.mulpd (e a) (e b))
  expj t := e.symm (Cpx.expj t)

/-- The arithmetic of the library compiled for `i`; a complex number is a pair of doubles.
(src/otfft_misc.h:227-1862 as the arithmetic of the kernels) -/
@[instance_reducible] def Target.arith (F : Type) [FArith F] (i : Target) : CArith F (Xmm F) :=
  (i.xmm F).arith (Equiv.refl _)

end OTFFT
