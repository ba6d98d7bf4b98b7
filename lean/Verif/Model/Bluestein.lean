/-
Bluestein's algorithm (src/otfft_algo.cpp:729-1073, src/otfft_base.h:149-180).
-/
import Verif.Model.Real

noncomputable section

namespace OTFFT

variable {F C : Type} [DArith F] [CArith F C]

/-- src/otfft_base.h:149-180 -/
structure Bluestein where
  N : Nat
  L : Nat
  fft : FFT
  work1 : SArr
  work2 : SArr
  weight : SArr
  a : Ptr
  b : Ptr
  W : Ptr

/-- default constructor (src/otfft_algo.cpp:733) -/
def Bluestein.empty : Bluestein := ⟨0, 0, .empty, none, none, none, Ptr.null, Ptr.null, Ptr.null⟩

/-- `for (L = 1; L < N2 - 1; L *= 2);` (src/otfft_algo.cpp:752) from `L = 2^k` on; `none` = the
multiplication overflows `int` -/
def blueLoop (N2 k : Nat) : Option Nat :=
  if _h : 2 ^ k < N2 - 1 then
    if 2 ^ (k + 1) < 2 ^ 31 then blueLoop N2 (k + 1) else none
  else some (2 ^ k)
termination_by N2 - 2 ^ k
decreasing_by
  have : 2 ^ (k + 1) = 2 ^ k + 2 ^ k := by rw [Nat.pow_succ]; omega
  have := Nat.two_pow_pos k
  omega

/-- one iteration of the table loop (src/otfft_algo.cpp:759-765): the assignments in order -/
def blueStores (C : Type) [CArith F C] (N : Nat) (W : Ptr) (p : Nat) : List (Ptr × C) :=
  let theta : F := fmul (fofNat p) (fdiv fpi (fofNat N))
  let c : F := fcos theta
  let s : F := fneg (fsin theta)
  [(W + p, CArith.cmk c s), (W + (2 * N - p), CArith.cmk c (fneg s))]

/-- the table part of `setup` (src/otfft_algo.cpp:757-774) -/
def blueTable (C : Type) [CArith F C] (thr : Thr) (N : Nat) (W : Ptr) : Code C :=
  let one : F := fofNat 1
  [[storeList [(W + 2 * N, ofD C one), (W, ofD C one), (W + N, ofD C (fneg one))]]] ++
  Code.loop (!decide (N < thr.apiW)) (tasks1 (N - 1) fun p => storeList (blueStores C N W (p + 1)))

/-- `setup(n)` for `n ≥ 1` (src/otfft_algo.cpp:749-775). Overflow of `2*N` or of `L *= 2` is undefined behaviour.
(If it happens the length used afterwards does not matter.) -/
def Bluestein.setupPos (C : Type) [CArith F C] (thr : Thr) (o : Bluestein) (n : Nat) :
    Act C (Bluestein × Bool) :=
  if 2 ^ 31 ≤ 2 * n then .run [[.ub]] (.ret (o, false))
  else match blueLoop (2 * n) 0 with
  | none => .run [[.ub]] (.ret (o, false))
  | some L => do
    let o := { o with N := n, L := L }
    let r ← o.fft.setup C thr L
    let o := { o with fft := r.1 }
    if r.2 then .ret (o, true) else do
    let a ← SArr.setup C o.work1 L
    match a with
    | none => .ret ({ o with work1 := none }, true)
    | some b1 => do
      let o := { o with work1 := some b1, a := Ptr.base b1 }
      let a ← SArr.setup C o.work2 L
      match a with
      | none => .ret ({ o with work2 := none }, true)
      | some b2 => do
        let o := { o with work2 := some b2, b := Ptr.base b2 }
        let a ← SArr.setup C o.weight (2 * n + 1 : Nat)
        match a with
        | none => .ret ({ o with weight := none }, true)
        | some b3 => do
          Act.exec (blueTable C thr n (Ptr.base b3))
          .ret ({ o with weight := some b3, W := Ptr.base b3 }, false)

/-- `setup(n)` (src/otfft_algo.cpp:747-775): `if (n < 1) return;` -/
def Bluestein.setup (C : Type) [CArith F C] (thr : Thr) (o : Bluestein) (n : Int) : Act C (Bluestein × Bool) :=
  if n < 1 then .ret (o, false) else o.setupPos C thr n.toNat

/-- destructor (src/otfft_algo.cpp:740-745), then the members -/
def Bluestein.destroy (C : Type) (o : Bluestein) : Act C Unit := do
  SArr.release C o.work1
  SArr.release C o.work2
  SArr.release C o.weight
  o.fft.destroy C

/-- `Bluestein(int n)` (src/otfft_algo.cpp:735-738): if `setup` throws, the members are destroyed -/
def Bluestein.create (C : Type) [CArith F C] (thr : Thr) (n : Int) : Act C (Option Bluestein) := do
  let r ← Bluestein.empty.setup C thr n
  if r.2 then do
    SArr.release C r.1.weight
    SArr.release C r.1.work2
    SArr.release C r.1.work1
    r.1.fft.destroy C
    .ret none
  else .ret (some r.1)

/-- ghost: the blocks the members `fft`, `work1`, `work2`, `weight` own, src/otfft_base.h:171-175 -/
def Bluestein.blocks (o : Bluestein) : List Nat :=
  o.fft.blocks ++ (o.work1.toList ++ (o.work2.toList ++ o.weight.toList))

/-- `a[0] = x[0]; b[0] = x[0] = 1;` (src/otfft_algo.cpp:782) -/
def blueInit0 (C : Type) [CArith F C] (x a b : Ptr) : Task C :=
  .load x.loc fun v => .store a.loc v <| .store x.loc (ofD C (fofNat 1)) <|
  .load x.loc fun v => .store b.loc v (.ret ())

/-- `a[p] = b[p] = 0` (line 784) (src/otfft_algo.cpp:784) -/
def blueZero (C : Type) [CArith F C] (a b : Ptr) (p : Nat) : Task C :=
  .store (b + p).loc (ofD C (fofNat 0)) <| .load (b + p).loc fun v => .store (a + p).loc v (.ret ())

/-- `pp = static_cast<int>(q*q % N2)` with `int64_t q = p` (lines 786-787) -/
def blueIdx (N p : Nat) : Nat := p * p % (2 * N)

/-- body of the second loop (lines 785-791); the inverse transforms exchange `W[pp]` and
`W[N2-pp]` (lines 936-937). Overflow of the 64-bit product is undefined behaviour. -/
def blueChirp (N L : Nat) (inv : Bool) (x a b W : Ptr) (p : Nat) : Task C :=
  if 2 ^ 63 ≤ p * p then .ub
  else
  let pp := blueIdx N p
  let i1 := if inv then 2 * N - pp else pp
  let i2 := if inv then pp else 2 * N - pp
  .load (x + p).loc fun v => .load (W + i1).loc fun u => .store (a + p).loc (CArith.cmul v u) <|
  .load (W + i2).loc fun t => .store (x + p).loc t <|
  .load (x + p).loc fun t => .store (b + p).loc t <|
  .load (b + p).loc fun t => .store (b + (L - p)).loc t (.ret ())

/-- `setpz(a[k], mulpz(getpz(a[k]), getpz(b[k])))` (lines 809-810) -/
def blueMul (a b : Ptr) (k : Nat) : Task C :=
  .load (a + k).loc fun u => .load (b + k).loc fun v => .store (a + k).loc (mulpz u v) (.ret ())

/-- the factor `rN` (`fwd`, `invn`), `srN = sqrt(1.0/N)` (`fwdu`, `invu`), none (`fwd0`, `inv`)
(src/otfft_algo.cpp:780, 812-815 and the corresponding lines of the other transforms up to 1073) -/
def bsc (mode : ScaleMode) (N : Nat) (z : C) : C :=
  match mode with
  | .scale_1 => z
  | .scale_unitary => scl (fsqrt (fdiv (fofNat 1) (fofNat N))) z
  | .scale_length => scl (fdiv (fofNat 1) (fofNat N)) z

/-- `setpz(x[p], mulpd(rN, mulpz(getpz(a[p]), cnjpz(getpz(x[p])))))` (lines 812-813) -/
def blueOut (mode : ScaleMode) (N : Nat) (x a : Ptr) (p : Nat) : Task C :=
  .load (a + p).loc fun u => .load (x + p).loc fun v =>
  .store (x + p).loc (bsc mode N (mulpz u (cnjpz v))) (.ret ())

/-- `fwd`, `fwd0`, `fwdu`, `inv`, `invu`, `invn` (src/otfft_algo.cpp:777-1073) -/
def Bluestein.run (C : Type) [CArith F C] (thr : Thr) (o : Bluestein) (inv : Bool) (mode : ScaleMode)
    (x : Ptr) : Code C :=
  let N := o.N
  if N < 2 then []
  else
    let par := !decide (N < thr.api)
    [[blueInit0 C x o.a o.b]] ++
    Code.loop par (tasks1 (o.L - 1) fun p => blueZero C o.a o.b (p + 1)) ++
    Code.loop par (tasks1 (N - 1) fun p => blueChirp N o.L inv x o.a o.b o.W (p + 1)) ++
    o.fft.call C thr .fwd0 o.a ++ o.fft.call C thr .fwd0 o.b ++
    Code.loop par (tasks1 o.L fun k => blueMul o.a o.b k) ++
    o.fft.call C thr .invn o.a ++
    Code.loop par (tasks1 N fun p => blueOut mode N x o.a p)

/-- the member functions; `fwdn` calls `fwd` (line 924), `inv0` calls `inv` (line 974)
(src/otfft_algo.cpp:777-1073) -/
def Bluestein.call (C : Type) [CArith F C] (thr : Thr) (o : Bluestein) (e : Entry) (x : Ptr) : Code C :=
  match e with
  | .fwd => o.run C thr false .scale_length x
  | .fwd0 => o.run C thr false .scale_1 x
  | .fwdu => o.run C thr false .scale_unitary x
  | .fwdn => Bluestein.run C thr o false .scale_length x
  | .inv => o.run C thr true .scale_1 x
  | .inv0 => Bluestein.run C thr o true .scale_1 x
  | .invu => o.run C thr true .scale_unitary x
  | .invn => o.run C thr true .scale_length x

end OTFFT
