/-
The radix 2, 4, 8 and 16 butterflies.

Every kernel of a given radix and direction in src/otfft_avxdi{f,t}{4,8,16}{,omp}.h evaluates the
same expression on its (scaled / twiddled) operands; it is transcribed once from the
`fwdend`/`invend` structs of the DIF headers.  (That the cores, the OpenMP headers and the DIT
headers contain the same expressions was checked by parsing all twelve headers.)
-/
import Verif.Model.Arith

namespace OTFFT

/-- A butterfly of radix `r`, usable at any SIMD width.
(the straight-line bodies of the kernels, e.g. src/otfft_avxdif4.h:146-170) -/
structure BF (r : Nat) where
  fn : ∀ {F V : Type} [PZ F V], (Fin r → V) → Fin r → V

/-- src/otfft_avxdif4.h:195-224 (`fwdend<2,s>`), 432-459 (`invend<2,s>`): the same expression in
both directions. -/
def bf2 : BF 2 where
  fn := fun x => ![addpz (x 0) (x 1), subpz (x 0) (x 1)]

/-- src/otfft_avxdif4.h:146-170 (`fwdend<4,s,eo,mode>`, operands already scaled). -/
def bf4fwd : BF 4 where
  fn := fun x =>
    let a := x 0
    let b := x 1
    let c := x 2
    let d := x 3
    let apc := addpz a c
    let amc := subpz a c
    let bpd := addpz b d
    let jbmd := jxpz (subpz b d)
    ![addpz apc bpd,
      subpz amc jbmd,
      subpz apc bpd,
      addpz amc jbmd]

/-- src/otfft_avxdif4.h:381-405 (`invend<4,s,eo,mode>`, operands already scaled). -/
def bf4inv : BF 4 where
  fn := fun x =>
    let a := x 0
    let b := x 1
    let c := x 2
    let d := x 3
    let apc := addpz a c
    let amc := subpz a c
    let bpd := addpz b d
    let jbmd := jxpz (subpz b d)
    ![addpz apc bpd,
      addpz amc jbmd,
      subpz apc bpd,
      subpz amc jbmd]

/-- src/otfft_avxdif8.h:200-244 (`fwdend<8,s,eo,mode>`, operands already scaled). -/
def bf8fwd : BF 8 where
  fn := fun x =>
    let x0 := x 0
    let x1 := x 1
    let x2 := x 2
    let x3 := x 3
    let x4 := x 4
    let x5 := x 5
    let x6 := x 6
    let x7 := x 7
    let a04 := addpz x0 x4
    let s04 := subpz x0 x4
    let a26 := addpz x2 x6
    let js26 := jxpz (subpz x2 x6)
    let a15 := addpz x1 x5
    let s15 := subpz x1 x5
    let a37 := addpz x3 x7
    let js37 := jxpz (subpz x3 x7)
    let a04_p1_a26 := addpz a04 a26
    let s04_mj_s26 := subpz s04 js26
    let a04_m1_a26 := subpz a04 a26
    let s04_pj_s26 := addpz s04 js26
    let a15_p1_a37 := addpz a15 a37
    let w8_s15_mj_s37 := w8xpz (subpz s15 js37)
    let j_a15_m1_a37 := jxpz (subpz a15 a37)
    let v8_s15_pj_s37 := v8xpz (addpz s15 js37)
    ![addpz a04_p1_a26 a15_p1_a37,
      addpz s04_mj_s26 w8_s15_mj_s37,
      subpz a04_m1_a26 j_a15_m1_a37,
      subpz s04_pj_s26 v8_s15_pj_s37,
      subpz a04_p1_a26 a15_p1_a37,
      subpz s04_mj_s26 w8_s15_mj_s37,
      addpz a04_m1_a26 j_a15_m1_a37,
      addpz s04_pj_s26 v8_s15_pj_s37]

/-- src/otfft_avxdif8.h:508-552 (`invend<8,s,eo,mode>`, operands already scaled). -/
def bf8inv : BF 8 where
  fn := fun x =>
    let x0 := x 0
    let x1 := x 1
    let x2 := x 2
    let x3 := x 3
    let x4 := x 4
    let x5 := x 5
    let x6 := x 6
    let x7 := x 7
    let a04 := addpz x0 x4
    let s04 := subpz x0 x4
    let a26 := addpz x2 x6
    let js26 := jxpz (subpz x2 x6)
    let a15 := addpz x1 x5
    let s15 := subpz x1 x5
    let a37 := addpz x3 x7
    let js37 := jxpz (subpz x3 x7)
    let a04_p1_a26 := addpz a04 a26
    let s04_pj_s26 := addpz s04 js26
    let a04_m1_a26 := subpz a04 a26
    let s04_mj_s26 := subpz s04 js26
    let a15_p1_a37 := addpz a15 a37
    let v8_s15_pj_s37 := v8xpz (addpz s15 js37)
    let j_a15_m1_a37 := jxpz (subpz a15 a37)
    let w8_s15_mj_s37 := w8xpz (subpz s15 js37)
    ![addpz a04_p1_a26 a15_p1_a37,
      addpz s04_pj_s26 v8_s15_pj_s37,
      addpz a04_m1_a26 j_a15_m1_a37,
      subpz s04_mj_s26 w8_s15_mj_s37,
      subpz a04_p1_a26 a15_p1_a37,
      subpz s04_pj_s26 v8_s15_pj_s37,
      subpz a04_m1_a26 j_a15_m1_a37,
      addpz s04_mj_s26 w8_s15_mj_s37]

/-- src/otfft_avxdif16.h:371-475 (`fwdend<16,s,eo,mode>`, operands already scaled). -/
def bf16fwd : BF 16 where
  fn := fun x =>
    let x0 := x 0
    let x1 := x 1
    let x2 := x 2
    let x3 := x 3
    let x4 := x 4
    let x5 := x 5
    let x6 := x 6
    let x7 := x 7
    let x8 := x 8
    let x9 := x 9
    let xa := x 10
    let xb := x 11
    let xc := x 12
    let xd := x 13
    let xe := x 14
    let xf := x 15
    let a08 := addpz x0 x8
    let s08 := subpz x0 x8
    let a4c := addpz x4 xc
    let s4c := subpz x4 xc
    let a2a := addpz x2 xa
    let s2a := subpz x2 xa
    let a6e := addpz x6 xe
    let s6e := subpz x6 xe
    let a19 := addpz x1 x9
    let s19 := subpz x1 x9
    let a5d := addpz x5 xd
    let s5d := subpz x5 xd
    let a3b := addpz x3 xb
    let s3b := subpz x3 xb
    let a7f := addpz x7 xf
    let s7f := subpz x7 xf
    let js4c := jxpz s4c
    let js6e := jxpz s6e
    let js5d := jxpz s5d
    let js7f := jxpz s7f
    let a08p1a4c := addpz a08 a4c
    let s08mjs4c := subpz s08 js4c
    let a08m1a4c := subpz a08 a4c
    let s08pjs4c := addpz s08 js4c
    let a2ap1a6e := addpz a2a a6e
    let s2amjs6e := subpz s2a js6e
    let a2am1a6e := subpz a2a a6e
    let s2apjs6e := addpz s2a js6e
    let a19p1a5d := addpz a19 a5d
    let s19mjs5d := subpz s19 js5d
    let a19m1a5d := subpz a19 a5d
    let s19pjs5d := addpz s19 js5d
    let a3bp1a7f := addpz a3b a7f
    let s3bmjs7f := subpz s3b js7f
    let a3bm1a7f := subpz a3b a7f
    let s3bpjs7f := addpz s3b js7f
    let w8_s2amjs6e := w8xpz s2amjs6e
    let j_a2am1a6e := jxpz a2am1a6e
    let v8_s2apjs6e := v8xpz s2apjs6e
    let a08p1a4c_p1_a2ap1a6e := addpz a08p1a4c a2ap1a6e
    let s08mjs4c_pw_s2amjs6e := addpz s08mjs4c w8_s2amjs6e
    let a08m1a4c_mj_a2am1a6e := subpz a08m1a4c j_a2am1a6e
    let s08pjs4c_mv_s2apjs6e := subpz s08pjs4c v8_s2apjs6e
    let a08p1a4c_m1_a2ap1a6e := subpz a08p1a4c a2ap1a6e
    let s08mjs4c_mw_s2amjs6e := subpz s08mjs4c w8_s2amjs6e
    let a08m1a4c_pj_a2am1a6e := addpz a08m1a4c j_a2am1a6e
    let s08pjs4c_pv_s2apjs6e := addpz s08pjs4c v8_s2apjs6e
    let w8_s3bmjs7f := w8xpz s3bmjs7f
    let j_a3bm1a7f := jxpz a3bm1a7f
    let v8_s3bpjs7f := v8xpz s3bpjs7f
    let a19p1a5d_p1_a3bp1a7f := addpz a19p1a5d a3bp1a7f
    let s19mjs5d_pw_s3bmjs7f := addpz s19mjs5d w8_s3bmjs7f
    let a19m1a5d_mj_a3bm1a7f := subpz a19m1a5d j_a3bm1a7f
    let s19pjs5d_mv_s3bpjs7f := subpz s19pjs5d v8_s3bpjs7f
    let a19p1a5d_m1_a3bp1a7f := subpz a19p1a5d a3bp1a7f
    let s19mjs5d_mw_s3bmjs7f := subpz s19mjs5d w8_s3bmjs7f
    let a19m1a5d_pj_a3bm1a7f := addpz a19m1a5d j_a3bm1a7f
    let s19pjs5d_pv_s3bpjs7f := addpz s19pjs5d v8_s3bpjs7f
    let h1_s19mjs5d_pw_s3bmjs7f := h1xpz s19mjs5d_pw_s3bmjs7f
    let w8_a19m1a5d_mj_a3bm1a7f := w8xpz a19m1a5d_mj_a3bm1a7f
    let h3_s19pjs5d_mv_s3bpjs7f := h3xpz s19pjs5d_mv_s3bpjs7f
    let j_a19p1a5d_m1_a3bp1a7f := jxpz a19p1a5d_m1_a3bp1a7f
    let hd_s19mjs5d_mw_s3bmjs7f := hdxpz s19mjs5d_mw_s3bmjs7f
    let v8_a19m1a5d_pj_a3bm1a7f := v8xpz a19m1a5d_pj_a3bm1a7f
    let hf_s19pjs5d_pv_s3bpjs7f := hfxpz s19pjs5d_pv_s3bpjs7f
    ![addpz a08p1a4c_p1_a2ap1a6e a19p1a5d_p1_a3bp1a7f,
      addpz s08mjs4c_pw_s2amjs6e h1_s19mjs5d_pw_s3bmjs7f,
      addpz a08m1a4c_mj_a2am1a6e w8_a19m1a5d_mj_a3bm1a7f,
      addpz s08pjs4c_mv_s2apjs6e h3_s19pjs5d_mv_s3bpjs7f,
      subpz a08p1a4c_m1_a2ap1a6e j_a19p1a5d_m1_a3bp1a7f,
      subpz s08mjs4c_mw_s2amjs6e hd_s19mjs5d_mw_s3bmjs7f,
      subpz a08m1a4c_pj_a2am1a6e v8_a19m1a5d_pj_a3bm1a7f,
      subpz s08pjs4c_pv_s2apjs6e hf_s19pjs5d_pv_s3bpjs7f,
      subpz a08p1a4c_p1_a2ap1a6e a19p1a5d_p1_a3bp1a7f,
      subpz s08mjs4c_pw_s2amjs6e h1_s19mjs5d_pw_s3bmjs7f,
      subpz a08m1a4c_mj_a2am1a6e w8_a19m1a5d_mj_a3bm1a7f,
      subpz s08pjs4c_mv_s2apjs6e h3_s19pjs5d_mv_s3bpjs7f,
      addpz a08p1a4c_m1_a2ap1a6e j_a19p1a5d_m1_a3bp1a7f,
      addpz s08mjs4c_mw_s2amjs6e hd_s19mjs5d_mw_s3bmjs7f,
      addpz a08m1a4c_pj_a2am1a6e v8_a19m1a5d_pj_a3bm1a7f,
      addpz s08pjs4c_pv_s2apjs6e hf_s19pjs5d_pv_s3bpjs7f]

/-- src/otfft_avxdif16.h:970-1074 (`invend<16,s,eo,mode>`, operands already scaled). -/
def bf16inv : BF 16 where
  fn := fun x =>
    let x0 := x 0
    let x1 := x 1
    let x2 := x 2
    let x3 := x 3
    let x4 := x 4
    let x5 := x 5
    let x6 := x 6
    let x7 := x 7
    let x8 := x 8
    let x9 := x 9
    let xa := x 10
    let xb := x 11
    let xc := x 12
    let xd := x 13
    let xe := x 14
    let xf := x 15
    let a08 := addpz x0 x8
    let s08 := subpz x0 x8
    let a4c := addpz x4 xc
    let s4c := subpz x4 xc
    let a2a := addpz x2 xa
    let s2a := subpz x2 xa
    let a6e := addpz x6 xe
    let s6e := subpz x6 xe
    let a19 := addpz x1 x9
    let s19 := subpz x1 x9
    let a5d := addpz x5 xd
    let s5d := subpz x5 xd
    let a3b := addpz x3 xb
    let s3b := subpz x3 xb
    let a7f := addpz x7 xf
    let s7f := subpz x7 xf
    let js4c := jxpz s4c
    let js6e := jxpz s6e
    let js5d := jxpz s5d
    let js7f := jxpz s7f
    let a08p1a4c := addpz a08 a4c
    let s08mjs4c := subpz s08 js4c
    let a08m1a4c := subpz a08 a4c
    let s08pjs4c := addpz s08 js4c
    let a2ap1a6e := addpz a2a a6e
    let s2amjs6e := subpz s2a js6e
    let a2am1a6e := subpz a2a a6e
    let s2apjs6e := addpz s2a js6e
    let a19p1a5d := addpz a19 a5d
    let s19mjs5d := subpz s19 js5d
    let a19m1a5d := subpz a19 a5d
    let s19pjs5d := addpz s19 js5d
    let a3bp1a7f := addpz a3b a7f
    let s3bmjs7f := subpz s3b js7f
    let a3bm1a7f := subpz a3b a7f
    let s3bpjs7f := addpz s3b js7f
    let w8_s2amjs6e := w8xpz s2amjs6e
    let j_a2am1a6e := jxpz a2am1a6e
    let v8_s2apjs6e := v8xpz s2apjs6e
    let a08p1a4c_p1_a2ap1a6e := addpz a08p1a4c a2ap1a6e
    let s08mjs4c_pw_s2amjs6e := addpz s08mjs4c w8_s2amjs6e
    let a08m1a4c_mj_a2am1a6e := subpz a08m1a4c j_a2am1a6e
    let s08pjs4c_mv_s2apjs6e := subpz s08pjs4c v8_s2apjs6e
    let a08p1a4c_m1_a2ap1a6e := subpz a08p1a4c a2ap1a6e
    let s08mjs4c_mw_s2amjs6e := subpz s08mjs4c w8_s2amjs6e
    let a08m1a4c_pj_a2am1a6e := addpz a08m1a4c j_a2am1a6e
    let s08pjs4c_pv_s2apjs6e := addpz s08pjs4c v8_s2apjs6e
    let w8_s3bmjs7f := w8xpz s3bmjs7f
    let j_a3bm1a7f := jxpz a3bm1a7f
    let v8_s3bpjs7f := v8xpz s3bpjs7f
    let a19p1a5d_p1_a3bp1a7f := addpz a19p1a5d a3bp1a7f
    let s19mjs5d_pw_s3bmjs7f := addpz s19mjs5d w8_s3bmjs7f
    let a19m1a5d_mj_a3bm1a7f := subpz a19m1a5d j_a3bm1a7f
    let s19pjs5d_mv_s3bpjs7f := subpz s19pjs5d v8_s3bpjs7f
    let a19p1a5d_m1_a3bp1a7f := subpz a19p1a5d a3bp1a7f
    let s19mjs5d_mw_s3bmjs7f := subpz s19mjs5d w8_s3bmjs7f
    let a19m1a5d_pj_a3bm1a7f := addpz a19m1a5d j_a3bm1a7f
    let s19pjs5d_pv_s3bpjs7f := addpz s19pjs5d v8_s3bpjs7f
    let h1_s19mjs5d_pw_s3bmjs7f := h1xpz s19mjs5d_pw_s3bmjs7f
    let w8_a19m1a5d_mj_a3bm1a7f := w8xpz a19m1a5d_mj_a3bm1a7f
    let h3_s19pjs5d_mv_s3bpjs7f := h3xpz s19pjs5d_mv_s3bpjs7f
    let j_a19p1a5d_m1_a3bp1a7f := jxpz a19p1a5d_m1_a3bp1a7f
    let hd_s19mjs5d_mw_s3bmjs7f := hdxpz s19mjs5d_mw_s3bmjs7f
    let v8_a19m1a5d_pj_a3bm1a7f := v8xpz a19m1a5d_pj_a3bm1a7f
    let hf_s19pjs5d_pv_s3bpjs7f := hfxpz s19pjs5d_pv_s3bpjs7f
    ![addpz a08p1a4c_p1_a2ap1a6e a19p1a5d_p1_a3bp1a7f,
      addpz s08pjs4c_pv_s2apjs6e hf_s19pjs5d_pv_s3bpjs7f,
      addpz a08m1a4c_pj_a2am1a6e v8_a19m1a5d_pj_a3bm1a7f,
      addpz s08mjs4c_mw_s2amjs6e hd_s19mjs5d_mw_s3bmjs7f,
      addpz a08p1a4c_m1_a2ap1a6e j_a19p1a5d_m1_a3bp1a7f,
      subpz s08pjs4c_mv_s2apjs6e h3_s19pjs5d_mv_s3bpjs7f,
      subpz a08m1a4c_mj_a2am1a6e w8_a19m1a5d_mj_a3bm1a7f,
      subpz s08mjs4c_pw_s2amjs6e h1_s19mjs5d_pw_s3bmjs7f,
      subpz a08p1a4c_p1_a2ap1a6e a19p1a5d_p1_a3bp1a7f,
      subpz s08pjs4c_pv_s2apjs6e hf_s19pjs5d_pv_s3bpjs7f,
      subpz a08m1a4c_pj_a2am1a6e v8_a19m1a5d_pj_a3bm1a7f,
      subpz s08mjs4c_mw_s2amjs6e hd_s19mjs5d_mw_s3bmjs7f,
      subpz a08p1a4c_m1_a2ap1a6e j_a19p1a5d_m1_a3bp1a7f,
      addpz s08pjs4c_mv_s2apjs6e h3_s19pjs5d_mv_s3bpjs7f,
      addpz a08m1a4c_mj_a2am1a6e w8_a19m1a5d_mj_a3bm1a7f,
      addpz s08mjs4c_pw_s2amjs6e h1_s19mjs5d_pw_s3bmjs7f]

end OTFFT
