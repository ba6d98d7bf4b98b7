/-
The classes: `simd_array`, the algorithm objects behind `FFT_IF`, `FFT0`, `FFT`.

An object is its list of fields (a Lean value); arrays live in the heap.  A member function that may
throw returns the new fields and a flag `true` = `std::bad_alloc` was thrown.  Simplification: the
fields themselves are not heap cells.
-/
import Verif.Model.Act
import Verif.Model.MixedRadix
import Verif.Model.SixStep

noncomputable section

namespace OTFFT

variable {F C : Type} [DArith F] [CArith F C]

/-! ### `simd_array` (inc/otfft_complex.h:258-282) -/

/-- `simd_array<T>`: the pointer `p`, `none` = 0 -/
abbrev SArr := Option Nat

/-- `operator&` (inc/otfft_complex.h:281): the raw pointer -/
def SArr.ptr : SArr → Ptr
  | none => Ptr.null
  | some b => Ptr.base b

/-- `if (p) simd_free(p)` (inc/otfft_complex.h:268, 272, 277): `destroy()` and the destructor -/
def SArr.release (C : Type) : SArr → Act C Unit
  | none => .ret ()
  | some b => .free b (.ret ())

/-- `setup(n)` (inc/otfft_complex.h:270-275): free, allocate `n` elements; the result is the new
`p`; `none` means that `std::bad_alloc` is thrown (with `p = 0`). In `n*sizeof(T)` a negative `n` becomes a
`size_t` above 2^63, a request that `malloc` cannot satisfy. -/
def SArr.setup (C : Type) (a : SArr) (n : Int) : Act C SArr := do
  SArr.release C a
  if n < 0 then .ret none else .malloc n.toNat .ret

/-! ### The algorithm classes -/

/-- src/otfft_algo_dif4.cpp, src/otfft_algo_dif8.cpp, src/otfft_algo_dif16.cpp and the three dit files: the number in `init_Wt(4, N, W)`, src/otfft_algo_dif4.cpp:50 -/
inductive Radix where
  | r4 | r8 | r16
deriving DecidableEq

/-- The implementations of `FFT_IF` (src/otfft_if.h): Stockham DIF/DIT of radix 4, 8, 16, six-step,
mixed radix. (src/otfft_algo.cpp:25-42) -/
inductive AlgoKind where
  | stock (dit : Bool) (rad : Radix)
  | six
  | mixed
deriving DecidableEq

/-- `r` in `setup2` of the class: `if (N <= r) W = 0; … init_Wt(r, N, W)`
(the first argument of `init_Wt`, src/otfft_algo_dif4.cpp:50 and the five copies) -/
def Radix.num : Radix → Nat
  | .r4 => 4
  | .r8 => 8
  | .r16 => 16

/-- `OMP_THRESHOLD` of the class's header
(`OMP_THRESHOLD`, src/otfft_avxdif4.h:25, src/otfft_avxdif8.h:25, src/otfft_avxdif16.h:25, src/otfft_avxdit4.h:25, src/otfft_avxdit8.h:26, src/otfft_avxdit16.h:25) -/
def Thr.of (thr : Thr) (dit : Bool) (rad : Radix) : Nat :=
  match dit, rad with
  | false, .r4 => thr.dif4
  | false, .r8 => thr.dif8
  | false, .r16 => thr.dif16
  | true, .r4 => thr.dit4
  | true, .r8 => thr.dit8
  | true, .r16 => thr.dit16

/-- Fields of an algorithm object (union of the classes): src/otfft_algo_dif4.cpp:28-34,
src/otfft_algo_sixstep.cpp:31-43, src/otfft_algo_mixed.cpp:31-33. `self` is the block of the object
itself (it was created by `new`). The index pointer `iv` is not stored: its table is determined by
`logN` (`sixIv`). -/
structure Algo where
  kind : AlgoKind
  self : Nat
  N : Nat
  logN : Nat
  weight : SArr
  med : SArr
  sub : SArr
  index : SArr
  W : Ptr
  Wm : Ptr
  Ws : Ptr

/-- `new FFT0()`: the default constructor (src/otfft_algo_dif4.cpp:34, otfft_algo_sixstep.cpp:45,
otfft_algo_mixed.cpp:35) -/
def Algo.fresh (kind : AlgoKind) (self : Nat) : Algo where
  kind := kind
  self := self
  N := 0
  logN := 0
  weight := none
  med := none
  sub := none
  index := none
  W := Ptr.null
  Wm := Ptr.null
  Ws := Ptr.null

/-- blocks owned by an algorithm object
(ghost: the blocks the members own, src/otfft_algo_sixstep.cpp:40-43) -/
def Algo.blocks (o : Algo) : List Nat :=
  o.index.toList ++ (o.sub.toList ++ (o.med.toList ++ (o.weight.toList ++ [o.self])))

/-- `delete obj`: member destructors in reverse order of declaration, then the object itself
(src/otfft_if.h:12 virtual destructor) -/
def Algo.delete (C : Type) (o : Algo) : Act C Unit := do
  SArr.release C o.index
  SArr.release C o.sub
  SArr.release C o.med
  SArr.release C o.weight
  .free o.self (.ret ())

/-- `setup2(k)` of the six Stockham classes (src/otfft_algo_dif4.cpp:43-56 and the five copies) -/
def stockSetup2 (C : Type) [CArith F C] (thr : Thr) (dit : Bool) (rad : Radix) (o : Algo) (k : Nat) :
    Act C (Algo × Bool) :=
  let N := 2 ^ k
  let o := { o with logN := k, N := N }
  if N ≤ rad.num then .ret ({ o with W := Ptr.null }, false)
  else do
    let a ← SArr.setup C o.weight (stockhamTabLen (thr.of dit rad) rad.num N : Nat)
    match a with
    | none => .ret ({ o with weight := none }, true)
    | some b => do
      Act.exec (stockhamTable C thr (thr.of dit rad) rad.num N (Ptr.base b))
      .ret ({ o with weight := some b, W := Ptr.base b }, false)

/-- `init_weight_8xm` on the fields `W`, `weight` (src/otfft_algo_sixstep.cpp:74-79) -/
def sixSetup8xm (C : Type) [CArith F C] (thr : Thr) (o : Algo) (N : Nat) : Act C (Algo × Bool) := do
  let a ← SArr.setup C o.weight (N / 8 : Nat)
  match a with
  | none => .ret ({ o with weight := none }, true)
  | some b => do
    Act.exec (initW8xm C thr N (Ptr.base b))
    .ret ({ o with weight := some b, W := Ptr.base b }, false)

/-- `init_weight_nxn(n, W, weight, iv, index_array)` (src/otfft_algo_sixstep.cpp:81-90) -/
def sixSetupNxn (C : Type) [CArith F C] (thr : Thr) (o : Algo) (n : Nat) : Act C (Algo × Bool) := do
  let a ← SArr.setup C o.weight (n * (n + 2) / 2 : Nat)
  match a with
  | none => .ret ({ o with weight := none }, true)
  | some b => do
    let o := { o with weight := some b, W := Ptr.base b }
    let i ← SArr.setup C o.index (n / 2 * (n / 2 + 1) / 2 : Nat)
    match i with
    | none => .ret ({ o with index := none }, true)
    | some j => do
      Act.exec (initWnxn C thr n (Ptr.base b))
      .ret ({ o with index := some j }, false)

/-- `init_weight_nxn(m, Wm, weight_med, iv, index_array)` (the same lines)
(src/otfft_algo_sixstep.cpp:55-71) -/
def sixSetupMed (C : Type) [CArith F C] (thr : Thr) (o : Algo) (n : Nat) : Act C (Algo × Bool) := do
  let a ← SArr.setup C o.med (n * (n + 2) / 2 : Nat)
  match a with
  | none => .ret ({ o with med := none }, true)
  | some b => do
    let o := { o with med := some b, Wm := Ptr.base b }
    let i ← SArr.setup C o.index (n / 2 * (n / 2 + 1) / 2 : Nat)
    match i with
    | none => .ret ({ o with index := none }, true)
    | some j => do
      Act.exec (initWnxn C thr n (Ptr.base b))
      .ret ({ o with index := some j }, false)

/-- `init_weight_sub(n, W, weight)` (src/otfft_algo_sixstep.cpp:91-115) -/
def sixSetupW (C : Type) [CArith F C] (thr : Thr) (o : Algo) (n : Nat) : Act C (Algo × Bool) :=
  if n ≤ 8 then .ret ({ o with W := Ptr.null }, false)
  else do
    let a ← SArr.setup C o.weight (2 * n : Nat)
    match a with
    | none => .ret ({ o with weight := none }, true)
    | some b => do
      Act.exec (initWt C thr 8 n (Ptr.base b))
      .ret ({ o with weight := some b, W := Ptr.base b }, false)

/-- `init_weight_sub(m, Ws, weight_sub)` (the same lines) (src/otfft_algo_sixstep.cpp:55-71) -/
def sixSetupSub (C : Type) [CArith F C] (thr : Thr) (o : Algo) (n : Nat) : Act C (Algo × Bool) :=
  if n ≤ 8 then .ret ({ o with Ws := Ptr.null }, false)
  else do
    let a ← SArr.setup C o.sub (2 * n : Nat)
    match a with
    | none => .ret ({ o with sub := none }, true)
    | some b => do
      Act.exec (initWt C thr 8 n (Ptr.base b))
      .ret ({ o with sub := some b, Ws := Ptr.base b }, false)

/-- run `m`; if it did not throw, continue with `f`
(C++ semantics, no code of its own; an exception of the first part skips the second, e.g. src/otfft_algo.cpp:154-159) -/
def andThen {C O : Type} (m : Act C (O × Bool)) (f : O → Act C (O × Bool)) : Act C (O × Bool) := do
  let r ← m
  if r.2 then .ret r else f r.1

/-- `setup2(k)` of the six-step class (src/otfft_algo_sixstep.cpp:55-71) -/
def sixSetup2 (C : Type) [CArith F C] (thr : Thr) (o : Algo) (k : Nat) : Act C (Algo × Bool) :=
  let o := { o with logN := k, N := 2 ^ k }
  if k ≤ 5 then sixSetupW C thr o (2 ^ k)
  else if k % 2 = 1 then
    let m := 2 ^ (k / 2 - 1)
    andThen (andThen (sixSetup8xm C thr o (2 ^ k)) fun o => sixSetupMed C thr o m) fun o =>
      sixSetupSub C thr o m
  else
    let m := 2 ^ (k / 2)
    andThen (sixSetupNxn C thr o m) fun o => sixSetupSub C thr o m

/-- `setup(n)` of the mixed-radix class (src/otfft_algo_mixed.cpp:38-54). `n + 1` may overflow. Simplification:
a negative `N` is stored as 0; the transforms treat all `N ≤ 0` alike (`N < 2`, `k < N`). For negative `n` the
table loop is not entered. -/
def mixedSetup (C : Type) [CArith F C] (thr : Thr) (o : Algo) (n : Int) : Act C (Algo × Bool) := do
  let o := { o with N := n.toNat }
  Act.int (n + 1)
  let a ← SArr.setup C o.weight (n + 1)
  match a with
  | none => .ret ({ o with weight := none }, true)
  | some b => do
    Act.exec (if n < 0 then [] else mixTable C thr n.toNat (Ptr.base b))
    .ret ({ o with weight := some b, W := Ptr.base b }, false)

/-- `fwdfft<N,1,0,mode>()(x,y,W)` / `invfft<…>` of the six Stockham headers
(`fwdfft<N,1,0,mode>()(x, y, W)`, src/otfft_algo_dif4.cpp:81-106) -/
def stockItems (C : Type) [CArith F C] (dit : Bool) (rad : Radix) (inv : Bool) (path : Path)
    (mode : ScaleMode) (N : Nat) (x y W : Ptr) : Items C :=
  match dit, rad with
  | false, .r4 => difFFT C 4 (bf4 inv) 4 inv path mode N 1 false x y W
  | false, .r8 => difFFT C 8 (bf8 inv) 4 inv path mode N 1 false x y W
  | false, .r16 => difFFT C 16 (bf16 inv) 2 inv path mode N 1 false x y W
  | true, .r4 => ditFFT C 4 (bf4 inv) 4 inv path mode N 1 false x y W
  | true, .r8 => ditFFT C 8 (bf8 inv) 4 inv path mode N 1 false x y W
  | true, .r16 => ditFFT C 16 (bf16 inv) 2 inv path mode N 1 false x y W

/-- `fwd`, `fwd0`, … of the six Stockham classes: the `switch (log_N)` has the cases 1 to 24
(src/otfft_algo_dif4.cpp:77-297 and the five copies; OpenMP: src/otfft_avxdif4omp.h:505-725 and the
copies) -/
def stockRun (C : Type) [CArith F C] (thr : Thr) (dit : Bool) (rad : Radix) (inv : Bool)
    (mode : ScaleMode) (k : Nat) (x y W : Ptr) : Code C :=
  if k = 0 ∨ 24 < k then []
  else Items.region (stockItems C dit rad inv (pathOf (thr.of dit rad) (2 ^ k)) mode (2 ^ k) x y W)

/-- a transform on an algorithm object; `inv`/`mode` as in the member functions: `fwd` is
(false, scale_length), `fwd0` (false, scale_1), `fwdu` (false, scale_unitary), `inv` (true, scale_1),
`invu` (true, scale_unitary), `invn` (true, scale_length) (the virtual functions of src/otfft_if.h:16-23) -/
def Algo.transform (C : Type) [CArith F C] (thr : Thr) (o : Algo) (inv : Bool) (mode : ScaleMode)
    (x y : Ptr) : Code C :=
  match o.kind with
  | .stock dit rad => stockRun C thr dit rad inv mode o.logN x y o.W
  | .six => sixRun C thr inv mode o.logN x y o.W o.Wm o.Ws
  | .mixed => mixRun C thr inv mode o.N x y o.W

/-! ### `FFT0` (src/otfft_algo.cpp:48-143) -/

/-- `obj`, `N`, `log_N` (`none` = -1) (src/otfft_base.h:15-19) -/
structure FFT0 where
  obj : Option Algo
  N : Nat
  logN : Option Nat

/-- default constructor (src/otfft_algo.cpp:48) -/
def FFT0.empty : FFT0 := ⟨none, 0, some 0⟩

/-- `for (log_N = 0; n > 1; n >>= 1) log_N++` (src/otfft_algo.cpp:63) -/
def logLoop (n : Nat) : Nat := if _h : n > 1 then logLoop (n / 2) + 1 else 0
termination_by n
decreasing_by exact Nat.div_lt_self (by omega) (by omega)

/-- lines 61-62: `log_N`, `-1` if `n` is not a power of two -/
def logOf (n : Nat) : Option Nat := if n ≠ 2 ^ logLoop n then none else some (logLoop n)

/-- the `switch (log_N)` (src/otfft_algo.cpp:68-96): `none` = no object -/
def dispatch : Option Nat → Option AlgoKind
  | some 0 => none
  | some 1 => some (.stock true .r4)
  | some 2 => some (.stock false .r4)
  | some 3 => some (.stock true .r8)
  | some 4 => some (.stock false .r4)
  | some 5 => some (.stock true .r8)
  | some 6 => some (.stock false .r8)
  | some 7 => some (.stock false .r16)
  | some 8 => some (.stock false .r8)
  | some 9 => some (.stock false .r8)
  | some 10 => some (.stock false .r4)
  | some 11 => some (.stock false .r16)
  | some 12 => some (.stock true .r8)
  | some 13 => some (.stock false .r8)
  | some 14 => some (.stock true .r8)
  | some 15 => some (.stock true .r8)
  | some 16 => some .six
  | some 17 => some (.stock true .r8)
  | some 18 => some .six
  | some 19 => some .six
  | some 20 => some .six
  | some 21 => some .six
  | some 22 => some .six
  | some 23 => some .six
  | some 24 => some .six
  | _ => some .mixed

/-- `obj->setup2(log_N)` or, in the default case, `obj->setup(N)` (src/otfft_algo.cpp:71-95) -/
def Algo.setup (C : Type) [CArith F C] (thr : Thr) (o : Algo) (N : Int) (logN : Option Nat) :
    Act C (Algo × Bool) :=
  match o.kind with
  | .stock dit rad => stockSetup2 C thr dit rad o (logN.getD 0)
  | .six => sixSetup2 C thr o (logN.getD 0)
  | .mixed => mixedSetup C thr o N

/-- `obj.reset()` (src/otfft_algo.cpp:55-58, 62, 100) -/
def FFT0.reset (C : Type) (o : FFT0) : Act C Unit :=
  match o.obj with
  | none => .ret ()
  | some a => a.delete C

/-- `setup(n)` (src/otfft_algo.cpp:60-103). For negative `n` the loop over `n > 1` is not entered and `N` is not
`1 << 0`, so that `log_N` becomes -1, as for 0; `N` (which is not read by anything else) is stored as 0 then. -/
def FFT0.setup (C : Type) [CArith F C] (thr : Thr) (o : FFT0) (n : Int) : Act C (FFT0 × Bool) := do
  o.reset C
  let o : FFT0 := ⟨none, n.toNat, logOf n.toNat⟩
  match dispatch (logOf n.toNat) with
  | none => .ret (o, false)
  | some kind => .malloc 0 fun p =>        -- `instance()`: `new FFT0()`
    match p with
    | none => .ret (o, true)
    | some b => do
      let r ← (Algo.fresh kind b).setup C thr n (logOf n.toNat)
      if r.2 then do
        r.1.delete C                       -- `catch (...) { obj.reset(); throw; }`
        .ret (o, true)
      else .ret ({ o with obj := some r.1 }, false)

/-- the eight transforms of a class (inc/otfft.h:65-93) -/
inductive Entry where
  | fwd | fwd0 | fwdu | fwdn | inv | inv0 | invu | invn
deriving DecidableEq

/-- `obj->f(x, y)` (src/otfft_algo.cpp:105-143); a null `obj` is undefined behaviour -/
def FFT0.obj_call (C : Type) [CArith F C] (thr : Thr) (o : FFT0) (inv : Bool) (mode : ScaleMode)
    (x y : Ptr) : Code C :=
  match o.obj with
  | none => [[.ub]]
  | some a => a.transform C thr inv mode x y

/-- the member functions of `FFT0` (src/otfft_algo.cpp:105-143); `fwdn` calls `fwd`, `inv0` calls
`inv` -/
def FFT0.call (C : Type) [CArith F C] (thr : Thr) (o : FFT0) (e : Entry) (x y : Ptr) : Code C :=
  match e with
  | .fwd => o.obj_call C thr false .scale_length x y
  | .fwd0 => o.obj_call C thr false .scale_1 x y
  | .fwdu => o.obj_call C thr false .scale_unitary x y
  | .fwdn => FFT0.obj_call C thr o false .scale_length x y
  | .inv => o.obj_call C thr true .scale_1 x y
  | .inv0 => FFT0.obj_call C thr o true .scale_1 x y
  | .invu => o.obj_call C thr true .scale_unitary x y
  | .invn => o.obj_call C thr true .scale_length x y

/-- `FFT0(int n) : obj(), N(n), log_N(0) { setup(n); }` (src/otfft_algo.cpp:50-53): if `setup` throws, the
member `obj` is destroyed -/
def FFT0.create (C : Type) [CArith F C] (thr : Thr) (n : Int) : Act C (Option FFT0) := do
  let r ← FFT0.setup C thr { FFT0.empty with N := n.toNat } n
  if r.2 then do
    r.1.reset C
    .ret none
  else .ret (some r.1)

/-- ghost: the blocks `obj` owns, src/otfft_base.h:17 -/
def FFT0.blocks (o : FFT0) : List Nat := (o.obj.map Algo.blocks).getD []

/-! ### `FFT` = `ComplexFFT` (src/otfft_algo.cpp:145-199) -/

/-- src/otfft_base.h:37-60 -/
structure FFT where
  fft : FFT0
  work : SArr
  y : Ptr

/-- default constructor (line 142) (src/otfft_algo.cpp:145) -/
def FFT.empty : FFT := ⟨.empty, none, Ptr.null⟩

/-- `setup(n)` (lines 151-156) -/
def FFT.setup (C : Type) [CArith F C] (thr : Thr) (o : FFT) (n : Int) : Act C (FFT × Bool) := do
  let r ← o.fft.setup C thr n
  let o := { o with fft := r.1 }
  if r.2 then .ret (o, true) else do
  let a ← SArr.setup C o.work n
  match a with
  | none => .ret ({ o with work := none }, true)
  | some b => .ret ({ o with work := some b, y := Ptr.base b }, false)

/-- destructor (lines 146-149) followed by the member destructors -/
def FFT.destroy (C : Type) (o : FFT) : Act C Unit := do
  SArr.release C o.work
  o.fft.reset C

/-- the member functions (lines 158-200) -/
def FFT.call (C : Type) [CArith F C] (thr : Thr) (o : FFT) (e : Entry) (x : Ptr) : Code C :=
  o.fft.call C thr e x o.y

/-- ghost: the blocks `fft` and `work` own, src/otfft_base.h:37-60 -/
def FFT.blocks (o : FFT) : List Nat := o.fft.blocks ++ o.work.toList

/-- `FFT(int n) : fft(n), work(n), y(&work)` (line 144): if a member constructor throws, the members
already constructed are destroyed and the exception propagates (`none`). (src/otfft_algo.cpp:147) -/
def FFT.create (C : Type) [CArith F C] (thr : Thr) (n : Int) : Act C (Option FFT) := do
  let r ← FFT0.empty.setup C thr n
  if r.2 then .ret none else do
  let a ← SArr.setup C none n
  match a with
  | none => do
    r.1.reset C
    .ret none
  | some b => .ret (some ⟨r.1, some b, Ptr.base b⟩)

end OTFFT
