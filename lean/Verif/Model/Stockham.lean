/-
The power-of-two Stockham kernels: radix 4, 8, 16, decimation in frequency (DIF) and in time (DIT),
single-threaded and OpenMP.

The twelve headers src/otfft_avxdi{f,t}{4,8,16}{,omp}.h are instances of the templates below.
Line numbers of the instances (fwdcore | ends | invcore | ends):
 dif4.h      33-138 | 146-224 | 262-373 | 381-459     dif4omp.h   23-132 | 140-226 | 264-373 | 381-467
 dif8.h      32-192 | 200-285 | 332-500 | 508-593     dif8omp.h   23-194 | 202-291 | 338-510 | 518-607
 dif16.h     32-363 | 371-575 | 631-962 | 970-1174    dif16omp.h  23-358 | 366-574 | 630-965 | 973-1181
 dit4.h      32-114 | 122-200 | 238-326 | 334-412     dit4omp.h   23-108 | 116-202 | 240-326 | 334-420
 dit8.h      33-227 | 235-320 | 367-571 | 579-664     dit8omp.h   23-231 | 239-328 | 375-584 | 592-681
 dit16.h     32-426 | 434-638 | 694-1088 | 1096-1300  dit16omp.h  23-418 | 426-634 | 690-1085 | 1093-1301
-/
import Verif.Model.Items
import Verif.Model.Butterfly

noncomputable section

namespace OTFFT

variable {F C : Type} [DArith F] [CArith F C]

/-- single-threaded headers or `…omp.h` headers
(src/otfft_avxdif4.h against src/otfft_avxdif4omp.h, chosen at src/otfft_algo_dif4.cpp:80) -/
inductive Path where
  | serial | omp
deriving DecidableEq

/-- forward kernels use the table entry, inverse kernels its conjugate
(`dupez5(conj(W[sp]))`, `cnjpz2(getpz2(W+p))`, `cnjez4(dupez5(*twidT…))`)
(`cnjpz` of the loaded twiddle factors, e.g. src/otfft_avxdif4omp.h:264-311) -/
def cj {F V : Type} [PZ F V] (inv : Bool) (w : V) : V := if inv then cnjpz w else w

/-- powers of one twiddle factor as the OpenMP kernels compute them: `w2p = mul(w1p,w1p)`,
`w3p = mul(w1p,w2p)`, `w4p = mul(w2p,w2p)`, … (src/otfft_avxdif16omp.h:133-146,
otfft_avxdif8omp.h:76-81, otfft_avxdif4omp.h and the DIT headers alike). -/
def wpow {F V : Type} [PZ F V] (w : V) (k : Nat) : V :=
  if _h : k ≤ 1 then w
  else if k % 2 = 0 then mulpz (wpow w (k / 2)) (wpow w (k / 2))
  else mulpz (wpow w (k / 2)) (wpow w (k / 2 + 1))
termination_by k
decreasing_by all_goals omega

/-- result `k` of a DIF core: the butterfly output times twiddle `k` (result 0 is not multiplied)
(e.g. src/otfft_avxdif4.h:53-75) -/
def difOut {F V : Type} [PZ F V] {r : Nat} (B : BF r) (X : Fin r → V) (T : Fin (r - 1) → V) : Fin r → V :=
  fun k => if h : k.val = 0 then B.fn X k else mulpz (T ⟨k.val - 1, by omega⟩) (B.fn X k)

/-- results of a DIT core: the butterfly of the operands times their twiddles (operand 0 is not
multiplied) (e.g. src/otfft_avxdit4.h:41-63) -/
def ditOut {F V : Type} [PZ F V] {r : Nat} (B : BF r) (X : Fin r → V) (T : Fin (r - 1) → V) : Fin r → V :=
  B.fn fun j => if h : j.val = 0 then X j else mulpz (T ⟨j.val - 1, by omega⟩) (X j)

/-- twiddles 1, …, r-1 of a single-threaded core from the `r-1` loaded table entries
(e.g. src/otfft_avxdif4.h:42-48) -/
def twSerial {F V : Type} [PZ F V] {b : Nat} (inv : Bool) (T : Fin b → V) : Fin b → V :=
  fun k => cj inv (T k)

/-- twiddles 1, …, r-1 of an OpenMP core from the single loaded table entry
(e.g. src/otfft_avxdif4omp.h:41-44) -/
def twOmp {F V : Type} [PZ F V] {b : Nat} (inv : Bool) (T : Fin 1 → V) : Fin b → V :=
  fun k => wpow (cj inv (T 0)) (k.val + 1)

/-- store order of the stride-1 DIF cores: `setpz2(y_rp+2k, catlo(o[2k],o[2k+1]))` for `2k < r`,
then `setpz2(y_rp+r+2k, cathi(o[2k],o[2k+1]))` (src/otfft_avxdif4.h:122-134). -/
def transpOut {V : Type} {r : Nat} [NeZero r] (o : Fin r → Fin 2 → V) : Fin r → Fin 2 → V :=
  fun k => if 2 * k.val < r then catlo (o (Fin.ofNat r (2 * k.val))) (o (Fin.ofNat r (2 * k.val + 1)))
    else cathi (o (Fin.ofNat r (2 * k.val - r))) (o (Fin.ofNat r (2 * k.val - r + 1)))

/-- operand order of the stride-1 DIT cores: operand `c` is `catlo`/`cathi` (even/odd `c`) of the
loads at `y_rp + 2⌊c/2⌋` and `y_rp + r + 2⌊c/2⌋` (src/otfft_avxdit4omp.h:85-97). -/
def transpIn {V : Type} {r : Nat} [NeZero r] (Y : Fin r → Fin 2 → V) : Fin r → Fin 2 → V :=
  fun c => if c.val % 2 = 0 then catlo (Y (Fin.ofNat r (c.val / 2))) (Y (Fin.ofNat r (c.val / 2 + r / 2)))
    else cathi (Y (Fin.ofNat r (c.val / 2))) (Y (Fin.ofNat r (c.val / 2 + r / 2)))

section templates
variable (r : Nat) [NeZero r] (B : BF r) (inv : Bool) (x y W : Ptr)

/-- `fwdcore<n,s>`/`invcore<n,s>` of the DIF headers, `s > 1`: reads `x`, writes `y`. `L` is the
SIMD step of the single-threaded loop (4 for radix 4 and 8, 2 for radix 16); the OpenMP loop always
steps by 4.
(src/otfft_avxdif4.h:33-78, 262-313, src/otfft_avxdif8.h:32-99, src/otfft_avxdif16.h:32-172 and the OpenMP files) -/
def difCoreS (C : Type) [CArith F C] (path : Path) (L n s : Nat) : Items C :=
  let N := n * s
  let N1 := N / r
  match path with
  | .serial => .loop .serial <| tasks2 (n / r) (cnt s L) fun p i =>
      let q := L * i
      let sp := s * p
      bfly (fun j => vec L (x + (q + sp + N1 * j.val)))
        (fun k : Fin (r - 1) => dup L (W + (r * sp + N + (k.val + 1))))
        (fun k => vec L (y + (q + r * sp + s * k.val)))
        (fun X T => difOut (V := Fin L → C) B X (twSerial inv T))
  | .omp => .loop .omp <| tasks1 (N1 / 4) fun i =>
      let p := i / (s / 4)
      let q := i % (s / 4) * 4
      let sp := s * p
      bfly (fun j => vec 4 (x + (q + sp + N1 * j.val)))
        (fun _ : Fin 1 => dup 4 (W + sp))
        (fun k => vec 4 (y + (q + r * sp + s * k.val)))
        (fun X T => difOut (V := Fin 4 → C) B X (twOmp inv T))

/-- `fwdcore<N,1>`/`invcore<N,1>` of the DIF headers.
(src/otfft_avxdif4.h:82-138, 317-373, src/otfft_avxdif8.h:103-190, src/otfft_avxdif16.h:176-361 and the OpenMP files) -/
def difCore1 (C : Type) [CArith F C] (path : Path) (N : Nat) : Items C :=
  let N1 := N / r
  match path with
  | .serial => .loop .serial <| tasks1 (cnt N1 2) fun i =>
      let p := 2 * i
      bfly (fun j => vec 2 (x + (p + N1 * j.val)))
        (fun k : Fin (r - 1) => vec 2 (W + (p + k.val * N1)))
        (fun k => vec 2 (y + (r * p + 2 * k.val)))
        (fun X T => transpOut (difOut (V := Fin 2 → C) B X (twSerial inv T)))
  | .omp => .loop .omp <| tasks1 (cnt N1 2) fun i =>
      let p := 2 * i
      bfly (fun j => vec 2 (x + (p + N1 * j.val)))
        (fun _ : Fin 1 => vec 2 (W + p))
        (fun k => vec 2 (y + (r * p + 2 * k.val)))
        (fun X T => transpOut (difOut (V := Fin 2 → C) B X (twOmp inv T)))

/-- `fwdcore<n,s>`/`invcore<n,s>` of the DIT headers, `s > 1`: reads `y`, writes `x`.
(src/otfft_avxdit4.h:32-66, 238-278, src/otfft_avxdit8.h:33-116, src/otfft_avxdit16.h:32-203 and the OpenMP files) -/
def ditCoreS (C : Type) [CArith F C] (path : Path) (L n s : Nat) : Items C :=
  let N := n * s
  let N1 := N / r
  match path with
  | .serial => .loop .serial <| tasks2 (n / r) (cnt s L) fun p i =>
      let q := L * i
      let sp := s * p
      bfly (fun j => vec L (y + (q + r * sp + s * j.val)))
        (fun k : Fin (r - 1) => dup L (W + (r * sp + N + (k.val + 1))))
        (fun k => vec L (x + (q + sp + N1 * k.val)))
        (fun X T => ditOut (V := Fin L → C) B X (twSerial inv T))
  | .omp => .loop .omp <| tasks1 (N1 / 4) fun i =>
      let p := i / (s / 4)
      let q := i % (s / 4) * 4
      let sp := s * p
      bfly (fun j => vec 4 (y + (q + r * sp + s * j.val)))
        (fun _ : Fin 1 => dup 4 (W + sp))
        (fun k => vec 4 (x + (q + sp + N1 * k.val)))
        (fun X T => ditOut (V := Fin 4 → C) B X (twOmp inv T))

/-- `fwdcore<N,1>`/`invcore<N,1>` of the DIT headers (the OpenMP loop has `nowait`: it is the last
loop of the region).
(src/otfft_avxdit4.h:70-113, 282-325, src/otfft_avxdit8.h:121-225, src/otfft_avxdit16.h:208-424 and the OpenMP files) -/
def ditCore1 (C : Type) [CArith F C] (path : Path) (N : Nat) : Items C :=
  let N1 := N / r
  match path with
  | .serial => .loop .serial <| tasks1 (cnt N1 2) fun i =>
      let p := 2 * i
      bfly (fun j => vec 2 (y + (r * p + 2 * j.val)))
        (fun k : Fin (r - 1) => vec 2 (W + (p + k.val * N1)))
        (fun k => vec 2 (x + (p + N1 * k.val)))
        (fun X T => ditOut (V := Fin 2 → C) B (transpIn X) (twSerial inv T))
  | .omp => .loop .ompNowait <| tasks1 (cnt N1 2) fun i =>
      let p := 2 * i
      bfly (fun j => vec 2 (y + (r * p + 2 * j.val)))
        (fun _ : Fin 1 => vec 2 (W + p))
        (fun k => vec 2 (x + (p + N1 * k.val)))
        (fun X T => ditOut (V := Fin 2 → C) B (transpIn X) (twOmp inv T))

/-- `fwdend<r,s,eo,mode>`/`invend<r,s,eo,mode>`: reads `src`, writes `dst`, two lanes for `s > 1`,
scalar for `s = 1` (in the OpenMP headers inside `#pragma omp single`). `kind` is the annotation of
the `s > 1` loop.
(src/otfft_avxdif4.h:146-224, src/otfft_avxdif8.h:200-284, src/otfft_avxdif16.h:371-574, src/otfft_avxdit4.h:122-200 and the others) -/
def endKern (C : Type) [CArith F C] (kind : LoopKind) (mode : ScaleMode) (s : Nat)
    (src dst : Ptr) : Items C :=
  let N := r * s
  if s = 1 then
    .loop .serial [bfly (fun j => vec 1 (src + j.val)) (Fin.elim0) (fun k => vec 1 (dst + k.val))
      (fun X _ => B.fn (V := Fin 1 → C) fun j => scalepz N mode (X j))]
  else
    .loop kind <| tasks1 (cnt s 2) fun i =>
      let q := 2 * i
      bfly (fun j => vec 2 (src + (q + s * j.val))) (Fin.elim0)
        (fun k => vec 2 (dst + (q + s * k.val)))
        (fun X _ => B.fn (V := Fin 2 → C) fun j => scalepz N mode (X j))

end templates

/-- The butterfly for a direction. (src/otfft_avxdif4.h:146-170, 381-405) -/
def bf4 (inv : Bool) : BF 4 := if inv then bf4inv else bf4fwd
/-- src/otfft_avxdif8.h:200-244, 508-552 -/
def bf8 (inv : Bool) : BF 8 := if inv then bf8inv else bf8fwd
/-- src/otfft_avxdif16.h:371-475, 970-1074 -/
def bf16 (inv : Bool) : BF 16 := if inv then bf16inv else bf16fwd

/-- last stage of length `n`: `fwdend<n,…>` of the header of radix 16, 8 or 4 (radix 2 is in the
radix-4 header). Other lengths are not instantiated by the code.
(the specialisations of `fwdend`/`invend`, e.g. src/otfft_avxdif16.h:591-623, which hand over to the smaller radices) -/
def endAny (C : Type) [CArith F C] (inv : Bool) (kind : LoopKind) (mode : ScaleMode) (n s : Nat)
    (src dst : Ptr) : Items C :=
  if n = 16 then endKern 16 (bf16 inv) C kind mode s src dst
  else if n = 8 then endKern 8 (bf8 inv) C kind mode s src dst
  else if n = 4 then endKern 4 (bf4 inv) C kind mode s src dst
  else if n = 2 then endKern 2 bf2 C kind mode s src dst
  else [([.ub], true)]

/-- annotation of the last-stage loops of the DIF headers: `nowait` in the OpenMP headers
(e.g. src/otfft_avxdif4omp.h:140-226) -/
def difEndKind : Path → LoopKind
  | .serial => .serial
  | .omp => .ompNowait

/-- annotation of the last-stage loops of the DIT headers
(e.g. src/otfft_avxdit4omp.h:116-202) -/
def ditEndKind : Path → LoopKind
  | .serial => .serial
  | .omp => .omp

/-- `fwdfft<n,s,eo,mode>`/`invfft<…>` of a DIF header: core on `(x,y)`, then recursion on `(y,x)`
(e.g. src/otfft_avxdif4.h:229-256). The OpenMP ends have `nowait`. -/
def difFFT (C : Type) [CArith F C] (r : Nat) [NeZero r] (B : BF r) (L : Nat) (inv : Bool)
    (path : Path) (mode : ScaleMode) (n s : Nat) (eo : Bool) (x y W : Ptr) : Items C :=
  if _h : n ≤ r ∨ r < 2 then
    endAny C inv (difEndKind path) mode n s x
      (if eo then y else x)
  else
    (if s = 1 then difCore1 r B inv x y W C path n else difCoreS r B inv x y W C path L n s) ++
      difFFT C r B L inv path mode (n / r) (r * s) (!eo) y x W
termination_by n
decreasing_by exact Nat.div_lt_self (by omega) (by omega)

/-- `fwdfft<n,s,eo,mode>`/`invfft<…>` of a DIT header: recursion on `(y,x)`, then core on `(x,y)`
(e.g. src/otfft_avxdit4omp.h:208-235). -/
def ditFFT (C : Type) [CArith F C] (r : Nat) [NeZero r] (B : BF r) (L : Nat) (inv : Bool)
    (path : Path) (mode : ScaleMode) (n s : Nat) (eo : Bool) (x y W : Ptr) : Items C :=
  if _h : n ≤ r ∨ r < 2 then
    endAny C inv (ditEndKind path) mode n s
      (if eo then y else x) x
  else
    ditFFT C r B L inv path mode (n / r) (r * s) (!eo) y x W ++
    (if s = 1 then ditCore1 r B inv x y W C path n else ditCoreS r B inv x y W C path L n s)
termination_by n
decreasing_by exact Nat.div_lt_self (by omega) (by omega)

end OTFFT
