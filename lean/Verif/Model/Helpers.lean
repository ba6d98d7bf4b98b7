/-
Routines of the kernel library that no transform calls: the symmetric table builder `init_W`, the quarter table lookup
`modq`, `getwp2`, `swappz`, and `setup(int)` of the classes behind `FFT_IF`.
-/
import Verif.Model.Api
import Verif.Model.Real
import Verif.Model.Simd

namespace OTFFT

variable {F C : Type} [DArith F] [CArith F C]

/-- what iteration `p` of the loops of `init_W` stores: index and value, in program order (src/otfft_misc.h:134-141, 150-157);
`complex_t(…)` of the components `c = cos(theta)`, `s = -sin(theta)`, `theta = p * theta0`, `theta0 = 2*M_PI/N` (115) -/
def initWStores (C : Type) [CArith F C] (N p : Nat) : List (Nat × C) :=
  let theta : F := fmul (fofNat p) (fdiv (fmul (fofNat 2) fpi) (fofNat N))
  let c : F := fcos theta
  let s : F := fneg (fsin theta)
  let Nh := N / 2
  let Nq := N / 4
  let Nd := N - Nq
  [(p, CArith.cmk c s), (Nq - p, CArith.cmk (fneg s) (fneg c)), (Nq + p, CArith.cmk s (fneg c)), (Nh - p, CArith.cmk (fneg c) s),
   (Nh + p, CArith.cmk (fneg c) (fneg s)), (Nd - p, CArith.cmk s c), (Nd + p, CArith.cmk (fneg s) c), (N - p, CArith.cmk c (fneg s))]

/-- what `init_W` stores for `N < 8` (src/otfft_misc.h:120-129). The double literals 1 and -1 become `complex_t(1, 0)`,
`complex_t(-1, 0)`; `W[0] = W[1] = 1` stores `W[1]` first. -/
def initWSmall (C : Type) [CArith F C] (N : Nat) : List (Nat × C) :=
  let z : F := fofNat 0
  let one : F := fofNat 1
  if N < 1 then []
  else if N < 2 then [(1, CArith.cmk one z), (0, CArith.cmk one z)]
  else if N < 4 then [(2, CArith.cmk one z), (0, CArith.cmk one z), (1, CArith.cmk (fneg one) z)]
  else [(0, CArith.cmk one z), (1, CArith.cmk z (fneg one)), (2, CArith.cmk (fneg one) z), (3, CArith.cmk z one), (4, CArith.cmk one z)]

/-- a task that performs these stores to the array `W`, in order (src/otfft_misc.h:134-141) -/
def storesTask (W : Ptr) (st : List (Nat × C)) : Task C := storeList (st.map fun tv => (W + tv.1, tv.2))

/-- `init_W(N, W)` (src/otfft_misc.h:113-159) -/
def initW (C : Type) [CArith F C] (thr : Thr) (N : Nat) (W : Ptr) : Code C :=
  if N < 8 then [[storesTask W (initWSmall C N)]]
  else Code.loop (!decide (N < thr.w)) <| tasks1 (N / 8 + 1) fun p => storesTask W (initWStores C N p)

/-- `modq<N, s>(W, p)` (src/otfft_misc.h:80-96) and `modqpz<N, s>(W, p)` (345-361, 607-623) for `N ≥ 4`, `p ≥ 0`: the
product `s*p` must not overflow. `neg`, `mjx` are the negation and the multiplication by -i.
The value computed from the entry is also modelled in Model/Simd (C34); this is the access to memory. -/
def modqMem {α : Type} (neg jx mjx : C → C) (N s : Nat) (W : Ptr) (p : Nat) (ret : C → Prog C α) : Prog C α :=
  let Nq := N / 4
  let sp := s * p
  if 2 ^ 31 ≤ sp then .ub
  else
    let q := sp / 2 ^ mylog2 Nq                  -- `sp >> log_Nq`
    let r := sp &&& (Nq - 1)
    .load (W + r).loc fun z =>
      match q % 4 with                          -- `q & 3`
      | 0 => ret z
      | 1 => ret (mjx z)
      | 2 => ret (neg z)
      | _ => ret (jx z)

/-- `getwp2<s>(W, p)` (src/otfft_misc.h:902-907, 1129-1134): the two lanes `W[s*p]`, `W[s*p+s]` -/
def getwp2 {α : Type} (s : Nat) (W : Ptr) (p : Nat) (ret : C × C → Prog C α) : Prog C α :=
  if 2 ^ 31 ≤ s * p + s then .ub
  else .load (W + s * p).loc fun a => .load (W + (s * p + s)).loc fun b => ret (a, b)

/-- `cnj_getwp2<s>(W, p)` (src/otfft_misc.h:909-914, 1136-1141) -/
def cnj_getwp2 {α : Type} (s : Nat) (W : Ptr) (p : Nat) (ret : C × C → Prog C α) : Prog C α :=
  getwp2 s W p fun ab => ret (cnjpz ab.1, cnjpz ab.2)

/-- `swappz(x, y)` (src/otfft_misc.h:282-286, 540-544) -/
def swappz (x y : Ptr) : Task C :=
  .load x.loc fun z => .load y.loc fun t => .store x.loc t (.store y.loc z (.ret ()))

/-- `setup(int n)` of the class (src/otfft_algo_dif4.cpp:38-42 and the five copies, otfft_algo_sixstep.cpp:48-53,
otfft_algo_mixed.cpp:38-54), `n ≥ 0`; `for (log_N = 0; n > 1; n >>= 1) log_N++; setup2(log_N);`; the six-step class clears its pointers first -/
def Algo.setupInt (C : Type) [CArith F C] (thr : Thr) (o : Algo) (n : Nat) : Act C (Algo × Bool) :=
  match o.kind with
  | .stock dit rad => stockSetup2 C thr dit rad o (logLoop n)
  | .six => sixSetup2 C thr { o with W := Ptr.null, Wm := Ptr.null, Ws := Ptr.null } (logLoop n)
  | .mixed => mixedSetup C thr o n

/-- Direct use of one of the classes behind `FFT_IF` with `setup(int)`: `new`, `setup(n)`, one transform, `delete`
(a test program, not code of the library; the constructor `FFT0(const int n)`, src/otfft_algo_dif4.cpp:36, does the first two) -/
noncomputable def algoOnceInt (C : Type) [CArith F C] (thr : Thr) (kind : AlgoKind) (n : Nat) (inv : Bool)
    (mode : ScaleMode) (x y : Ptr) : Act C Bool :=
  .malloc 0 fun p =>
    match p with
    | none => .ret false
    | some b => do
      let r ← (Algo.fresh kind b).setupInt C thr n
      if r.2 then do
        r.1.delete C
        .ret false
      else do
        Act.exec (r.1.transform C thr inv mode x y)
        r.1.delete C
        .ret true

end OTFFT
