/-
User programs: what a caller does with one object of a public class.
-/
import Verif.Model.Bluestein

noncomputable section

namespace OTFFT

/-- The operations of one public class (inc/otfft.h:50-180). `Call` is one transform call with its
arguments. -/
structure Cls (C : Type) where
  Obj : Type
  Call : Type
  /-- `new X(n)` (src/otfft_factory.h, src/otfft.cpp): `none` = the constructor threw -/
  create : Int → Act C (Option Obj)
  /-- `setup(n)`: the flag is `true` when it threw -/
  setup : Obj → Int → Act C (Obj × Bool)
  call : Obj → Call → Code C
  /-- destructor -/
  destroy : Obj → Act C Unit

/-- one step of a user program: `setup(n)`, a transform, or an assignment `*p = v` to the user's own
memory (what a user does with an object: the member functions of inc/otfft.h:52-180) -/
inductive Op (C Call : Type) where
  | setup (n : Int)
  | call (c : Call)
  | store (p : Ptr) (v : C)

/-- A user program working on the object `o`; `ok` says that the last `setup` (or constructor) did not
throw. The program does not call transforms after a `setup` that threw, but may call `setup`
again.
(a user's sequence of member function calls, inc/otfft.h:52-180; `ok` = the last set-up did not throw) -/
def Cls.session {C : Type} (X : Cls C) (o : X.Obj) (ok : Bool) : List (Op C X.Call) → Act C (X.Obj × Bool)
  | [] => .ret (o, ok)
  | .setup n :: ops => do
    let r ← X.setup o n
    X.session r.1 (!r.2) ops
  | .call c :: ops =>
    if ok then do
      Act.exec (X.call o c)
      X.session o ok ops
    else X.session o ok ops
  | .store p v :: ops => do
    Act.exec [[.store p.loc v (.ret ())]]
    X.session o ok ops

/-- Construct an object of length `n` and use it: the object and whether the last `setup` succeeded;
`none` = the constructor threw. (construction, src/otfft_algo.cpp:1090-1111, and then a session) -/
def Cls.use {C : Type} (X : Cls C) (n : Int) (ops : List (Op C X.Call)) : Act C (Option (X.Obj × Bool)) := do
  let r ← X.create n
  match r with
  | none => .ret none
  | some o => do
    let s ← X.session o true ops
    .ret (some s)

/-- Construct an object of length `n`, use it, destroy it. The result says whether the constructor
and the last `setup` succeeded.
(`auto p = createX(n); …; }`: construction (src/otfft_algo.cpp:1090-1111), session, destruction (1075-1088)) -/
def Cls.lifetime {C : Type} (X : Cls C) (n : Int) (ops : List (Op C X.Call)) : Act C Bool := do
  let r ← X.use n ops
  match r with
  | none => .ret false
  | some s => do
    X.destroy s.1
    .ret s.2

variable {F C : Type} [DArith F] [CArith F C]

/-- `ComplexFFT` objects as made by `createComplexFFT` (inc/otfft.h:52-94; src/otfft_algo.cpp:145-199) -/
def complexFFT (C : Type) [CArith F C] (thr : Thr) : Cls C where
  Obj := FFT
  Call := Entry × Ptr
  create := FFT.create C thr
  setup := FFT.setup C thr
  call := fun o c => o.call C thr c.1 c.2
  destroy := FFT.destroy C

/-- `RealFFT` objects as made by `createRealFFT`; a call has the arguments `x` (read) and `y`
(written) (inc/otfft.h:99-141; src/otfft_algo.cpp:205-495) -/
def realFFT (C : Type) [CArith F C] (thr : Thr) : Cls C where
  Obj := RFFT
  Call := Entry × Ptr × Ptr
  create := RFFT.create C thr
  setup := RFFT.setup C thr
  call := fun o c => o.call C thr c.1 c.2.1 c.2.2
  destroy := RFFT.destroy C

/-- `RealDCT` objects as made by `createDCT` (inc/otfft.h:146-180; src/otfft_algo.cpp:678-727) -/
def realDCT (C : Type) [CArith F C] (thr : Thr) : Cls C where
  Obj := DCT
  Call := DctEntry × Ptr
  create := DCT.create C thr
  setup := DCT.setup C thr
  call := fun o c => o.call C thr c.1 c.2
  destroy := DCT.destroy C

/-- Bluestein objects as made by `createBluesteinFFT` (inc/otfft.h:52-94; src/otfft_algo.cpp:733-1073) -/
def bluesteinFFT (C : Type) [CArith F C] (thr : Thr) : Cls C where
  Obj := Bluestein
  Call := Entry × Ptr
  create := Bluestein.create C thr
  setup := Bluestein.setup C thr
  call := fun o c => o.call C thr c.1 c.2
  destroy := Bluestein.destroy C

/-- `FFT0` objects (src/otfft_base.h:15-35, README.md:89-109): the caller passes the work area `y` -/
def rawFFT (C : Type) [CArith F C] (thr : Thr) : Cls C where
  Obj := FFT0
  Call := Entry × Ptr × Ptr
  create := FFT0.create C thr
  setup := FFT0.setup C thr
  call := fun o c => o.call C thr c.1 c.2.1 c.2.2
  destroy := FFT0.reset C

/-- `DCT0` objects (src/otfft_base.h:96-119, README.md:183-203): the caller passes the work areas `y` and
`z` -/
def rawDCT (C : Type) [CArith F C] (thr : Thr) : Cls C where
  Obj := DCT0
  Call := DctEntry × Ptr × Ptr × Ptr
  create := DCT0.create C thr
  setup := DCT0.setup C thr
  call := fun o c => o.call C thr c.1 c.2.1 c.2.2.1 c.2.2.2
  destroy := DCT0.destroy C

/-- Direct use of one of the algorithm classes behind `FFT_IF`, whatever the dispatcher would choose:
`new`, `setup`, one transform of `x` with work area `y`, `delete`; `false` = out of memory.
(a test program, not code of the library: `instance()`, `setup2`, one transform, `delete`, as src/otfft_algo.cpp:66-103 uses the classes) -/
def algoOnce (C : Type) [CArith F C] (thr : Thr) (kind : AlgoKind) (n : Nat) (inv : Bool)
    (mode : ScaleMode) (x y : Ptr) : Act C Bool :=
  .malloc 0 fun p =>
    match p with
    | none => .ret false
    | some b => do
      let r ← (Algo.fresh kind b).setup C thr n (logOf n)
      if r.2 then do
        r.1.delete C
        .ret false
      else do
        Act.exec (r.1.transform C thr inv mode x y)
        r.1.delete C
        .ret true

end OTFFT
