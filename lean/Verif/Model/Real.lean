/-
The real transforms: `RFFT` (= `RealFFT`), `DCT0`, `DCT` (= `RealDCT`).

A cell of a `double` array holds a number whose real part is the double (`Model/Mem.lean`).
`getpz(x + 2*p)` on a `double*` loads the two doubles `x[2p]`, `x[2p+1]` as one complex number,
`setpz(y + 2*p, z)` stores the two components.
-/
import Verif.Model.Objects

noncomputable section

namespace OTFFT

variable {F C : Type} [DArith F] [CArith F C]

/-- a run of assignments `*p = v` (assignments one after the other, e.g. src/otfft_algo.cpp:254-261) -/
def storeList {C : Type} : List (Ptr × C) → Task C
  | [] => .ret ()
  | pv :: ws => .store pv.1.loc pv.2 (storeList ws)

/-- conversion of a `double` to a cell: `complex_t(double)` (inc/otfft_complex.h:81) -/
def ofD (C : Type) [CArith F C] (d : F) : C := CArith.cmk d (fofNat 0)

/-- `complex_t(a, b)/2` (inc/otfft_complex.h:206-210) -/
def half (C : Type) [CArith F C] (a b : F) : C :=
  CArith.cmk (fdiv a (fofNat 2)) (fdiv b (fofNat 2))

/-- `haddpz(ab, xy)`: (a+b, x+y) (src/otfft_misc.h:378-383) -/
def haddpz (ab xy : C) : C := CArith.cmk (fadd (CArith.re ab) (CArith.im ab)) (fadd (CArith.re xy) (CArith.im xy))

/-! ### `RFFT` (src/otfft_algo.cpp:201-495, src/otfft_base.h:64-91) -/

/-- src/otfft_base.h:64-91 -/
structure RFFT where
  N : Nat
  fft : FFT0
  weight : SArr
  U : Ptr

/-- default constructor (src/otfft_algo.cpp:205) -/
def RFFT.empty : RFFT := ⟨0, .empty, none, Ptr.null⟩

/-- one iteration of the loop for lengths that are not powers of two (src/otfft_algo.cpp:231-237):
the assignments in order -/
def rfftGenStores (C : Type) [CArith F C] (N : Nat) (U : Ptr) (p : Nat) : List (Ptr × C) :=
  let theta : F := fmul (fofNat p) (fdiv (fmul (fofNat 2) fpi) (fofNat N))
  let c : F := fcos theta
  let s : F := fneg (fsin theta)
  [(U + p, half C (fsub (fofNat 1) s) c), (U + (N - p), half C (fadd (fofNat 1) s) c)]

/-- one iteration of the eight-fold loop for powers of two (src/otfft_algo.cpp:250-261, 265-276): the
assignments in order -/
def rfftPowStores (C : Type) [CArith F C] (N : Nat) (U : Ptr) (p : Nat) : List (Ptr × C) :=
  let theta : F := fmul (fofNat p) (fdiv (fmul (fofNat 2) fpi) (fofNat N))
  let c : F := fcos theta
  let s : F := fneg (fsin theta)
  let one : F := fofNat 1
  let Nh := N / 2
  let Nq := N / 4
  let Nd := N - Nq
  [(U + p, half C (fsub one s) c),
   (U + (Nq - p), half C (fadd one c) (fneg s)),
   (U + (Nq + p), half C (fadd one c) s),
   (U + (Nh - p), half C (fsub one s) (fneg c)),
   (U + (Nh + p), half C (fadd one s) (fneg c)),
   (U + (Nd - p), half C (fsub one c) s),
   (U + (Nd + p), half C (fsub one c) (fneg s)),
   (U + (N - p), half C (fadd one s) c)]

/-- the table part of `setup` (src/otfft_algo.cpp:225-277); integer constants like `1 + 1` are written
out -/
def rfftTable (C : Type) [CArith F C] (thr : Thr) (N : Nat) (U : Ptr) : Code C :=
  let zero : F := fofNat 0
  let one : F := fofNat 1
  if N < 1 then []
  else if N ≠ 2 ^ logLoop N then
    Code.loop false (tasks1 (N / 2 + 1) fun p => storeList (rfftGenStores C N U p))
  else if N = 1 then [[storeList [(U + 1, half C one one), (U + 0, half C one one)]]]
  else if N = 2 then
    [[storeList [(U + 2, half C one one), (U + 0, half C one one), (U + 1, half C one (fneg one))]]]
  else if N = 4 then
    [[storeList [(U + 0, half C one one), (U + 1, half C (fofNat 2) zero), (U + 2, half C one (fneg one)),
      (U + 3, half C zero zero), (U + 4, half C one one)]]]
  else Code.loop (!decide (N < thr.apiW)) (tasks1 (N / 8 + 1) fun p => storeList (rfftPowStores C N U p))

/-- `setup(n)` (src/otfft_algo.cpp:217-278); the `assert` is compiled out (NDEBUG). `N/2` rounds towards zero.
Simplification: a negative `N` is stored as 0; everything that reads it first tests `N < 1`. -/
def RFFT.setup (C : Type) [CArith F C] (thr : Thr) (o : RFFT) (n : Int) : Act C (RFFT × Bool) := do
  let o := { o with N := n.toNat }
  let r ← o.fft.setup C thr (n.tdiv 2)
  let o := { o with fft := r.1 }
  if r.2 then .ret (o, true) else do
  Act.int (n + 1)
  let a ← SArr.setup C o.weight (n + 1)
  match a with
  | none => .ret ({ o with weight := none }, true)
  | some b => do
    Act.exec (rfftTable C thr n.toNat (Ptr.base b))
    .ret ({ o with weight := some b, U := Ptr.base b }, false)

/-- destructor (src/otfft_algo.cpp:212-215), then the members -/
def RFFT.destroy (C : Type) (o : RFFT) : Act C Unit := do
  SArr.release C o.weight
  o.fft.reset C

/-- `RFFT(int n)` (src/otfft_algo.cpp:207-210): if `setup` throws, the members are destroyed -/
def RFFT.create (C : Type) [CArith F C] (thr : Thr) (n : Int) : Act C (Option RFFT) := do
  let r ← RFFT.empty.setup C thr n
  if r.2 then do
    r.1.destroy C
    .ret none
  else .ret (some r.1)

/-- ghost: the blocks `fft` and `weight` own, src/otfft_base.h:86-90 -/
def RFFT.blocks (o : RFFT) : List Nat := o.fft.blocks ++ o.weight.toList

/-- scaling of the two real outputs: `/ N` in `fwd` (lines 290-291), nothing in `fwd0`
(lines 327-328), `/ sN` in `fwdu` (lines 366-367) -/
def rsc0 (F : Type) [DArith F] (mode : ScaleMode) (N : Nat) (d : F) : F :=
  match mode with
  | .scale_1 => d
  | .scale_unitary => fdiv d (fsqrt (fofNat N))
  | .scale_length => fdiv d (fofNat N)

/-- scaling of the other outputs: `mulpd(rN, ·)`, nothing, `mulpd(rsN, ·)` (the same functions)
(src/otfft_algo.cpp:284, 297-298 (`fwd`), 330-336 (`fwd0`), 360-372 (`fwdu`)) -/
def rsc (mode : ScaleMode) (N : Nat) (z : C) : C :=
  match mode with
  | .scale_1 => z
  | .scale_unitary => scl (fdiv (fofNat 1) (fsqrt (fofNat N))) z
  | .scale_length => scl (fdiv (fofNat 1) (fofNat N)) z

/-- `setpz(z[p], getpz(x + 2*p))` (line 288) (src/otfft_algo.cpp:288) -/
def rfftPack (C : Type) [CArith F C] (x z : Ptr) (p : Nat) : Task C :=
  .load (x + 2 * p).loc fun a => .load (x + (2 * p + 1)).loc fun b =>
  .store (z + p).loc (CArith.cmk (CArith.re a) (CArith.re b)) (.ret ())

/-- `y[0] = (z[0].Re + z[0].Im) / N; z[0] = (z[0].Re - z[0].Im) / N;` (lines 290-291) -/
def rfftEnds (C : Type) [CArith F C] (mode : ScaleMode) (N : Nat) (y z : Ptr) : Task C :=
  .load z.loc fun a =>
  .store y.loc (ofD C (rsc0 F mode N (fadd (CArith.re a) (CArith.im a)))) <|
  .load z.loc fun a =>
  .store z.loc (ofD C (rsc0 F mode N (fsub (CArith.re a) (CArith.im a)))) (.ret ())

/-- body of the loop over `k` (lines 293-299) -/
def rfftPost (mode : ScaleMode) (N : Nat) (y z U : Ptr) (k : Nat) : Task C :=
  .load (z + k).loc fun a => .load (z + (N / 2 - k)).loc fun zb => .load (U + k).loc fun u =>
  let b := cnjpz zb
  let c := mulpz u (subpz a b)
  .store (y + k).loc (rsc mode N (subpz a c)) <|
  .store (y + (N / 2 - k)).loc (rsc mode N (cnjpz (addpz b c))) (.ret ())

/-- `setpz(y[N-k], cnjpz(getpz(y[k])))` (line 300) (src/otfft_algo.cpp:300) -/
def rfftMirror (N : Nat) (y : Ptr) (k : Nat) : Task C :=
  .load (y + k).loc fun a => .store (y + (N - k)).loc (cnjpz a) (.ret ())

/-- `fwd`, `fwd0`, `fwdu` (src/otfft_algo.cpp:280-392), `mode` = scale_length, scale_1,
scale_unitary -/
def RFFT.fwdWith (C : Type) [CArith F C] (thr : Thr) (o : RFFT) (mode : ScaleMode) (x y : Ptr) : Code C :=
  let N := o.N
  if N < 1 then []
  else if N = 1 then [[.load x.loc fun a => .store y.loc (ofD C (CArith.re a)) (.ret ())]]
  else
    let Nh := N / 2
    let z := y + Nh
    let par := !decide (N < thr.api)
    Code.loop false (tasks1 Nh fun p => rfftPack C x z p) ++
    o.fft.call C thr .fwd0 z y ++
    [[rfftEnds C mode N y z]] ++
    Code.loop par (tasks1 (N / 4) fun k => rfftPost mode N y z o.U (k + 1)) ++
    Code.loop par (tasks1 (Nh - 1) fun k => rfftMirror N y (k + 1))

/-- scaling in the inverse: `mulpd(x2, ·)` in `inv` (line 411), `mulpd(x2dsN, ·)` in `invu` (line
448), nothing in `invn` (line 478) (src/otfft_algo.cpp:403, 411 (`inv`), 439-448 (`invu`), 470-480 (`invn`)) -/
def rscInv (mode : ScaleMode) (N : Nat) (z : C) : C :=
  match mode with
  | .scale_1 => scl (fofNat 2) z
  | .scale_unitary => scl (fdiv (fofNat 2) (fsqrt (fofNat N))) z
  | .scale_length => z

/-- body of the loop over `k` (lines 407-412) -/
def rfftPre (mode : ScaleMode) (N : Nat) (x z U : Ptr) (k : Nat) : Task C :=
  .load (x + k).loc fun xa => .load (x + (N / 2 - k)).loc fun xb => .load (U + k).loc fun u =>
  let a := cnjpz xa
  let b := subpz a xb
  let c := mulpz u b
  .store (z + k).loc (rscInv mode N (cnjpz (subpz a c))) (.ret ())

/-- `setpz(y+2*p, getpz(z[p]))` (line 414) (src/otfft_algo.cpp:414) -/
def rfftUnpack (C : Type) [CArith F C] (y z : Ptr) (p : Nat) : Task C :=
  .load (z + p).loc fun a =>
  .store (y + 2 * p).loc (ofD C (CArith.re a)) <|
  .store (y + (2 * p + 1)).loc (ofD C (CArith.im a)) (.ret ())

/-- `inv`, `invu`, `invn` (src/otfft_algo.cpp:399-495), `mode` = scale_1, scale_unitary,
scale_length -/
def RFFT.invWith (C : Type) [CArith F C] (thr : Thr) (o : RFFT) (mode : ScaleMode) (x y : Ptr) : Code C :=
  let N := o.N
  if N < 1 then []
  else if N = 1 then [[.load x.loc fun a => .store y.loc (ofD C (CArith.re a)) (.ret ())]]
  else
    let Nh := N / 2
    let z := x + Nh
    let par := !decide (N < thr.api)
    Code.loop par (tasks1 Nh fun k => rfftPre mode N x z o.U k) ++
    o.fft.call C thr (match mode with | .scale_length => .invn | _ => .inv0) z x ++
    Code.loop par (tasks1 Nh fun p => rfftUnpack C y z p)

/-- the member functions; `fwdn` calls `fwd` (lines 394-397), `inv0` calls `inv` (lines 430-433).
For the forward transforms `x` is a `double` array and `y` a complex one, for the inverse
transforms the other way round. -/
def RFFT.call (C : Type) [CArith F C] (thr : Thr) (o : RFFT) (e : Entry) (x y : Ptr) : Code C :=
  match e with
  | .fwd => o.fwdWith C thr .scale_length x y
  | .fwd0 => o.fwdWith C thr .scale_1 x y
  | .fwdu => o.fwdWith C thr .scale_unitary x y
  | .fwdn => RFFT.fwdWith C thr o .scale_length x y
  | .inv => o.invWith C thr .scale_1 x y
  | .inv0 => RFFT.invWith C thr o .scale_1 x y
  | .invu => o.invWith C thr .scale_unitary x y
  | .invn => o.invWith C thr .scale_length x y

/-! ### `DCT0` (src/otfft_algo.cpp:501-676, src/otfft_base.h:97-119) -/

/-- src/otfft_base.h:96-119 -/
structure DCT0 where
  N : Nat
  rfft : RFFT
  weight : SArr
  V : Ptr

/-- default constructor (src/otfft_algo.cpp:501) -/
def DCT0.empty : DCT0 := ⟨0, .empty, none, Ptr.null⟩

/-- one iteration of the table loop (src/otfft_algo.cpp:522-528): the assignments in order -/
def dctStores (C : Type) [CArith F C] (N : Nat) (V : Ptr) (p : Nat) : List (Ptr × C) :=
  let theta : F := fmul (fofNat p) (fdiv fpi (fofNat (2 * N)))
  let c : F := fcos theta
  let s : F := fsin theta
  [(V + p, CArith.cmk c s), (V + (N - p), CArith.cmk s c)]

/-- the table part of `setup` (src/otfft_algo.cpp:519-537) -/
def dctTable (C : Type) [CArith F C] (thr : Thr) (N : Nat) (V : Ptr) : Code C :=
  if N < 2 then []
  else Code.loop (!decide (N < thr.apiW)) (tasks1 (N / 2 + 1) fun p => storeList (dctStores C N V p))

/-- `setup(n)` (src/otfft_algo.cpp:513-538). `N+1` and the `2*N` in `M_PI/(2*N)` may overflow. Simplification: a
negative `N` is stored as 0; everything that reads it first tests `N < 2`. -/
def DCT0.setup (C : Type) [CArith F C] (thr : Thr) (o : DCT0) (n : Int) : Act C (DCT0 × Bool) := do
  let o := { o with N := n.toNat }
  let r ← o.rfft.setup C thr n
  let o := { o with rfft := r.1 }
  if r.2 then .ret (o, true) else do
  Act.int (n + 1)
  let a ← SArr.setup C o.weight (n + 1)
  match a with
  | none => .ret ({ o with weight := none }, true)
  | some b => do
    Act.int (2 * n)
    Act.exec (dctTable C thr n.toNat (Ptr.base b))
    .ret ({ o with weight := some b, V := Ptr.base b }, false)

/-- destructor (src/otfft_algo.cpp:508-511), then the members -/
def DCT0.destroy (C : Type) (o : DCT0) : Act C Unit := do
  SArr.release C o.weight
  o.rfft.destroy C

/-- ghost: the blocks `rfft` and `weight` own, src/otfft_base.h:114-118 -/
def DCT0.blocks (o : DCT0) : List Nat := o.rfft.blocks ++ o.weight.toList

/-- `y[p] = x[2*p+0]; y[N-p-1] = x[2*p+1];` (lines 545-548): copies of doubles -/
def dctGather (N : Nat) (x y : Ptr) (p : Nat) : Task C :=
  .load (x + (2 * p + 0)).loc fun a => .store (y + p).loc a <|
  .load (x + (2 * p + 1)).loc fun a => .store (y + (N - p - 1)).loc a (.ret ())

/-- body of the loop over `k` (lines 561-565, `k += 2`) -/
def dctTwiddle (C : Type) [CArith F C] (x z V : Ptr) (k : Nat) : Task C :=
  .load (V + (k + 0)).loc fun v0 => .load (z + (k + 0)).loc fun z0 =>
  .load (V + (k + 1)).loc fun v1 => .load (z + (k + 1)).loc fun z1 =>
  let h : C := haddpz (CArith.mulpd v0 z0) (CArith.mulpd v1 z1)
  .store (x + k).loc (ofD C (CArith.re h)) <|
  .store (x + (k + 1)).loc (ofD C (CArith.im h)) (.ret ())

/-- `fwd`, `fwd0` (src/otfft_algo.cpp:540-610): `e` is the transform of `rfft` used -/
def DCT0.fwdWith (C : Type) [CArith F C] (thr : Thr) (o : DCT0) (e : Entry) (x y z : Ptr) : Code C :=
  let N := o.N
  if N < 2 then []
  else
    let par := !decide (N < thr.api)
    Code.loop par (tasks1 (N / 2) fun p => dctGather N x y p) ++
    o.rfft.call C thr e y z ++
    Code.loop par (tasks1 (cnt N 2) fun k => dctTwiddle C x z o.V (2 * k))

/-- `z[k] = V[k]*complex_t(x[k], -x[N-k])` (line 623) (src/otfft_algo.cpp:623) -/
def dctPre (C : Type) [CArith F C] (N : Nat) (x z V : Ptr) (k : Nat) : Task C :=
  .load (V + k).loc fun v => .load (x + k).loc fun a => .load (x + (N - k)).loc fun b =>
  .store (z + k).loc (CArith.cmul v (CArith.cmk (CArith.re a) (fneg (CArith.re b)))) (.ret ())

/-- `x[2*p+0] = y[p]; x[2*p+1] = y[N-p-1];` (lines 631-634): copies of doubles -/
def dctScatter (N : Nat) (x y : Ptr) (p : Nat) : Task C :=
  .load (y + p).loc fun a => .store (x + (2 * p + 0)).loc a <|
  .load (y + (N - p - 1)).loc fun a => .store (x + (2 * p + 1)).loc a (.ret ())

/-- `inv`, `invn` (src/otfft_algo.cpp:617-643, 650-676) -/
def DCT0.invWith (C : Type) [CArith F C] (thr : Thr) (o : DCT0) (e : Entry) (x y z : Ptr) : Code C :=
  let N := o.N
  if N < 2 then []
  else
    let par := !decide (N < thr.api)
    [[.load x.loc fun a => .store z.loc (ofD C (CArith.re a)) (.ret ())]] ++
    Code.loop par (tasks1 (N - 1) fun k => dctPre C N x z o.V (k + 1)) ++
    o.rfft.call C thr e z y ++
    Code.loop par (tasks1 (N / 2) fun p => dctScatter N x y p)

/-- the six transforms of `RealDCT` (inc/otfft.h) (inc/otfft.h:155-179) -/
inductive DctEntry where
  | fwd | fwd0 | fwdn | inv | inv0 | invn
deriving DecidableEq

/-- the member functions; `fwdn` calls `fwd` (lines 612-615), `inv0` calls `inv` (lines 645-648) -/
def DCT0.call (C : Type) [CArith F C] (thr : Thr) (o : DCT0) (e : DctEntry) (x y z : Ptr) : Code C :=
  match e with
  | .fwd => o.fwdWith C thr .fwd x y z
  | .fwd0 => o.fwdWith C thr .fwd0 x y z
  | .fwdn => DCT0.fwdWith C thr o .fwd x y z
  | .inv => o.invWith C thr .inv x y z
  | .inv0 => DCT0.invWith C thr o .inv x y z
  | .invn => o.invWith C thr .invn x y z

/-- `DCT0(int n)` (src/otfft_algo.cpp:503-506): if `setup` throws, the members are destroyed -/
def DCT0.create (C : Type) [CArith F C] (thr : Thr) (n : Int) : Act C (Option DCT0) := do
  let r ← DCT0.empty.setup C thr n
  if r.2 then do
    SArr.release C r.1.weight
    r.1.rfft.destroy C
    .ret none
  else .ret (some r.1)

/-! ### `DCT` = `RealDCT` (src/otfft_algo.cpp:678-727, src/otfft_base.h:121-143) -/

/-- src/otfft_base.h:121-143 -/
structure DCT where
  N : Nat
  dct : DCT0
  work1 : SArr
  work2 : SArr
  y : Ptr
  z : Ptr

/-- default constructor (src/otfft_algo.cpp:678) -/
def DCT.empty : DCT := ⟨0, .empty, none, none, Ptr.null, Ptr.null⟩

/-- `setup(n)` (src/otfft_algo.cpp:691-697); the field `N` is not read by anything -/
def DCT.setup (C : Type) [CArith F C] (thr : Thr) (o : DCT) (n : Int) : Act C (DCT × Bool) := do
  let o := { o with N := n.toNat }
  let r ← o.dct.setup C thr n
  let o := { o with dct := r.1 }
  if r.2 then .ret (o, true) else do
  let a ← SArr.setup C o.work1 n
  match a with
  | none => .ret ({ o with work1 := none }, true)
  | some b1 => do
    let o := { o with work1 := some b1, y := Ptr.base b1 }
    let a ← SArr.setup C o.work2 n
    match a with
    | none => .ret ({ o with work2 := none }, true)
    | some b2 => .ret ({ o with work2 := some b2, z := Ptr.base b2 }, false)

/-- destructor (src/otfft_algo.cpp:685-689), then the members -/
def DCT.destroy (C : Type) (o : DCT) : Act C Unit := do
  SArr.release C o.work1
  SArr.release C o.work2
  o.dct.destroy C

/-- `DCT(int n)` (src/otfft_algo.cpp:680-683): if `setup` throws, the members are destroyed -/
def DCT.create (C : Type) [CArith F C] (thr : Thr) (n : Int) : Act C (Option DCT) := do
  let r ← DCT.empty.setup C thr n
  if r.2 then do
    SArr.release C r.1.work2
    SArr.release C r.1.work1
    r.1.dct.destroy C
    .ret none
  else .ret (some r.1)

/-- the member functions (src/otfft_algo.cpp:699-727) -/
def DCT.call (C : Type) [CArith F C] (thr : Thr) (o : DCT) (e : DctEntry) (x : Ptr) : Code C :=
  o.dct.call C thr e x o.y o.z

/-- ghost: the blocks `dct`, `work1`, `work2` own, src/otfft_base.h:137-142 -/
def DCT.blocks (o : DCT) : List Nat := o.dct.blocks ++ (o.work1.toList ++ o.work2.toList)

end OTFFT
