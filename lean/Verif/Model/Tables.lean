/-
Build configuration (OpenMP thresholds) and the weight tables of the power-of-two kernels.
-/
import Verif.Model.Stockham

namespace OTFFT

variable {F C : Type} [DArith F] [CArith F C]

/-- The `OMP_THRESHOLD…` constants.  The theorems hold for every value of them; `Thr.omp` and
`Thr.single` are the two builds the source supports. -/
structure Thr where
  /-- src/otfft_misc.h:106-111, used by the table builders -/
  w : Nat
  dif4 : Nat
  dif8 : Nat
  dif16 : Nat
  dit4 : Nat
  dit8 : Nat
  dit16 : Nat
  /-- src/otfft_mixedradix.h:21-25 -/
  mixed : Nat
  /-- src/otfft_sixstepsq.h:26-30 -/
  six : Nat
  /-- src/otfft_eightstep.h:21-27 -/
  eight1 : Nat
  eight2 : Nat
  /-- src/otfft_base.h:83, 98, 168 (`RFFT`, `DCT0`, `Bluestein`) -/
  api : Nat
  /-- src/otfft_base.h:84, 99, 169 (their tables) -/
  apiW : Nat

/-- multi-threaded build (the values without DO_SINGLE_THREAD: src/otfft_misc.h:110 and the lines above) -/
def Thr.omp : Thr where
  w := 2^15
  dif4 := 2^13
  dif8 := 2^11
  dif16 := 2^12
  dit4 := 2^13
  dit8 := 2^13
  dit16 := 2^11
  mixed := 2^15
  six := 2^14
  eight1 := 2^13
  eight2 := 2^19
  api := 2^15
  apiW := 2^16

/-- `DO_SINGLE_THREAD` build (the values with DO_SINGLE_THREAD: src/otfft_misc.h:107 and the lines above) -/
def Thr.single : Thr where
  w := 2^30
  dif4 := 2^30
  dif8 := 2^30
  dif16 := 2^30
  dit4 := 2^30
  dit8 := 2^30
  dit16 := 2^30
  mixed := 2^30
  six := 2^30
  eight1 := 2^30
  eight2 := 2^30
  api := 2^15
  apiW := 2^16

/-- `-2*M_PI/N` (src/otfft_misc.h:165, 183) -/
def thetaW (F : Type) [DArith F] (N : Nat) : F := fdiv (fmul (fneg (fofNat 2)) fpi) (fofNat N)

/-- a task that only stores: `*(wr 0) = v 0; *(wr 1) = v 1; …` (e.g. src/otfft_misc.h:168) -/
def storeTask {C : Type} {c : Nat} (wr : Fin c → Ptr) (v : Fin c → C) : Task C :=
  bfly (L := 1) (a := 0) (b := 0) Fin.elim0 Fin.elim0 (fun k _ => wr k) (fun _ _ k _ => v k)

/-- `init_Wr1(r, N, W)` (src/otfft_misc.h:161-178) -/
def initWr1 (C : Type) [CArith F C] (thr : Thr) (r N : Nat) (W : Ptr) : Code C :=
  if N < r then []
  else Code.loop (!decide (N < thr.w)) <| tasks1 (N / r) fun p =>
    storeTask (c := 1) (fun _ => W + p) fun _ => CArith.expj (fmul (thetaW F N) (fofNat p))

/-- `init_Wt(r, N, W)` (src/otfft_misc.h:180-203): one iteration `p` does
`W[p+(k-1)*Nr] = W[N+r*p+k] = expj(theta*k*p)` for `k = 1, …, r-1`. -/
def initWt (C : Type) [CArith F C] (thr : Thr) (r N : Nat) (W : Ptr) : Code C :=
  if N < r then []
  else Code.loop (!decide (N < thr.w)) <| tasks1 (N / r) fun p =>
    storeTask (c := 2 * (r - 1))
      (fun i => if i.val % 2 = 0 then W + (N + r * p + (i.val / 2 + 1)) else W + (p + i.val / 2 * (N / r)))
      fun i => CArith.expj (fmul (fmul (thetaW F N) (fofNat (i.val / 2 + 1))) (fofNat p))

/-- table part of `setup2` of the six algorithm classes (src/otfft_algo_dif4.cpp:43-56,
otfft_algo_dif8.cpp, otfft_algo_dif16.cpp, otfft_algo_dit4.cpp, otfft_algo_dit8.cpp,
otfft_algo_dit16.cpp): nothing for `N ≤ r`, `init_Wt` below the threshold, `init_Wr1` above. -/
def stockhamTable (C : Type) [CArith F C] (thr : Thr) (th r N : Nat) (W : Ptr) : Code C :=
  if N ≤ r then []
  else if N < th then initWt C thr r N W
  else initWr1 C thr r N W

/-- number of table entries `setup2` allocates (same lines; 0 = no allocation, `W = 0`)
(src/otfft_algo_dif4.cpp:48, 53) -/
def stockhamTabLen (th r N : Nat) : Nat :=
  if N ≤ r then 0 else if N < th then 2 * N else N / r

/-- `if (N < OMP_THRESHOLD) … else OTFFT_AVX…omp::…` (src/otfft_algo_dif4.cpp:77-108): the
single-threaded or the OpenMP header -/
def pathOf (th N : Nat) : Path := if N < th then .serial else .omp

end OTFFT
