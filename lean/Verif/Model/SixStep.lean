/-
The six-step and eight-step algorithms: src/otfft_sixstepsq.h, src/otfft_eightstep.h,
src/otfft_algo_sixstep.cpp.

`inv` selects the forward or the inverse copy (sixstepsq.h:32-189 / 193-327, eightstep.h:31-204 /
208-346).  `OTFFT_FourStep` is `OTFFT_AVXDIF8` (sixstepsq.h:16-18), single-threaded.
-/
import Verif.Model.Tables

noncomputable section

namespace OTFFT

variable {F C : Type} [DArith F] [CArith F C]

/-- value of an `int` after conversion to `short`; `none` if it changes
(the members `short col, row`, src/otfft_sixstep.h:22) -/
def toShort (p : Nat) : Option Nat := if p < 32768 then some p else none

/-- `u*m + v - u*(u+1)/2` (src/otfft_algo_sixstep.cpp:144, 161) -/
def sixIdx (m u v : Nat) : Nat := u * m + v - u * (u + 1) / 2

/-- the number `L` of 2x2 blocks (src/otfft_sixstepsq.h:38) -/
def sixL (n : Nat) : Nat := n / 2 * (n / 2 + 1) / 2

/-- one assignment `ip[i].row = p; ip[i].col = k` (src/otfft_algo_sixstep.cpp:149-150) -/
def ivSet (m : Nat) (iv : Nat → Option (Nat × Nat)) (u v : Nat) : Nat → Option (Nat × Nat) :=
  fun i => if i = sixIdx m u v then
    (match toShort (2 * u), toShort (2 * v) with
      | some p, some k => some (p, k)
      | _, _ => none) else iv i

/-- The index table `(row, col)` filled by `init_Wnxn` (src/otfft_algo_sixstep.cpp:134-171); `none` is
an entry that was never written, or does not fit a `short`. Simplification: this private integer
table is a function, not part of the heap; out-of-range writes are `C40_index_fits`. -/
def ivBuild (n : Nat) : Nat → Option (Nat × Nat) :=
  (List.range (n / 2)).foldl (fun iv u =>
    (List.range (n / 2 - u)).foldl (fun iv j => ivSet (n / 2) iv u (u + j)) iv) (fun _ => none)

/-- `transpose_kernel(k, p, x)` (src/otfft_sixstepsq.h:40-67) -/
def sixTransp (C : Type) [CArith F C] (n k p : Nat) (x : Ptr) : Task C :=
  if k ≠ p then
    let pkn := p + k * n
    let kpn := k + p * n
    bfly (L := 2) (a := 4) (b := 0) (c := 4)
      ![vec 2 (x + pkn), vec 2 (x + (pkn + n)), vec 2 (x + kpn), vec 2 (x + (kpn + n))] Fin.elim0
      ![vec 2 (x + (kpn + n)), vec 2 (x + kpn), vec 2 (x + (pkn + n)), vec 2 (x + pkn)]
      (fun X _ => ![cathi (X 0) (X 1), catlo (X 0) (X 1), cathi (X 2) (X 3), catlo (X 2) (X 3)])
  else
    let kkn := k + k * n
    bfly (L := 1) (a := 2) (b := 0) (c := 2)
      ![vec 1 (x + (kkn + 1)), vec 1 (x + (kkn + n))] Fin.elim0
      ![vec 1 (x + (kkn + n)), vec 1 (x + (kkn + 1))]
      (fun X _ => ![X 0, X 1])

/-- `mult_twiddle_factor_kernel(i, p, k, x, W)` (src/otfft_sixstepsq.h:69-114, 207-252). The inverse
copy issues two of the loads and two of the stores in the other order; modelled in forward order. -/
def sixMult (C : Type) [CArith F C] (inv : Bool) (mode : ScaleMode) (n i p k : Nat) (x W : Ptr) :
    Task C :=
  if k ≠ p then
    let kpn := k + p * n
    let pkn := p + k * n
    bfly (L := 2) (a := 4) (b := 2) (c := 4)
      ![vec 2 (x + kpn), vec 2 (x + (kpn + n)), vec 2 (x + pkn), vec 2 (x + (pkn + n))]
      ![vec 2 (W + (4 * i)), vec 2 (W + (4 * i + 2))]
      ![vec 2 (x + (pkn + n)), vec 2 (x + pkn), vec 2 (x + (kpn + n)), vec 2 (x + kpn)]
      (fun X T =>
        let w1 : Fin 2 → C := scalepz (n * n) mode (cj inv (T 0))
        let w2 : Fin 2 → C := scalepz (n * n) mode (cj inv (T 1))
        let ab := mulpz w1 (X 0)
        let AB := mulpz w2 (X 1)
        ![cathi ab AB, catlo ab AB, mulpz w2 (cathi (X 2) (X 3)), mulpz w1 (catlo (X 2) (X 3))])
  else
    let ppn := p + p * n
    bfly (L := 2) (a := 2) (b := 2) (c := 2)
      ![vec 2 (x + ppn), vec 2 (x + (ppn + n))]
      ![vec 2 (W + (4 * i)), vec 2 (W + (4 * i + 2))]
      ![vec 2 (x + (ppn + n)), vec 2 (x + ppn)]
      (fun X T =>
        let w1 : Fin 2 → C := scalepz (n * n) mode (cj inv (T 0))
        let w2 : Fin 2 → C := scalepz (n * n) mode (cj inv (T 1))
        let ab := mulpz w1 (X 0)
        let AB := mulpz w2 (X 1)
        ![cathi ab AB, catlo ab AB])

/-- iteration `i` of the transpose loops: `k = iv[i].row; p = iv[i].col`
(src/otfft_sixstepsq.h:132-136) -/
def sixTranspIter (C : Type) [CArith F C] (iv : Nat → Option (Nat × Nat)) (n : Nat) (x : Ptr)
    (i : Nat) : Task C :=
  match iv i with
  | some (row, col) => sixTransp C n row col x
  | none => .ub

/-- iteration `i` of the twiddle loop: `k = iv[i].col; p = iv[i].row`
(src/otfft_sixstepsq.h:141-145) -/
def sixMultIter (C : Type) [CArith F C] (iv : Nat → Option (Nat × Nat)) (inv : Bool)
    (mode : ScaleMode) (n : Nat) (x W : Ptr) (i : Nat) : Task C :=
  match iv i with
  | some (row, col) => sixMult C inv mode n i row col x W
  | none => .ub

/-- row transform `p`: `fwdfft<n,1,0,scale_1>()(x + pn, y + pn, Ws)`
(src/otfft_sixstepsq.h:137-140) -/
def sixRow (C : Type) [CArith F C] (inv : Bool) (n : Nat) (x y Ws : Ptr) (p : Nat) : Task C :=
  Code.toProg <| Items.region <|
    difFFT C 8 (bf8 inv) 4 inv .serial .scale_1 n 1 false (x + p * n) (y + p * n) Ws

/-- `part1` (`kind = serial`) and `part2` (`kind = omp`) of a six-step transform of length `n*n`
(src/otfft_sixstepsq.h:129-188, 267-326) -/
def sixPart (C : Type) [CArith F C] (iv : Nat → Option (Nat × Nat)) (kind : LoopKind) (inv : Bool)
    (mode : ScaleMode) (n : Nat) (x y W Ws : Ptr) : Items C :=
  Items.loop kind (tasks1 (sixL n) (sixTranspIter C iv n x)) ++
  (Items.loop kind (tasks1 n (sixRow C inv n x y Ws)) ++
  (Items.loop kind (tasks1 (sixL n) (sixMultIter C iv inv mode n x W)) ++
  (Items.loop kind (tasks1 n (sixRow C inv n x y Ws)) ++
  Items.loop kind (tasks1 (sixL n) (sixTranspIter C iv n x)))))

/-- `fwdffts<log_N,mode>::operator()` (src/otfft_sixstepsq.h:116-127, 254-265) -/
def sixFFT (C : Type) [CArith F C] (thr : Thr) (iv : Nat → Option (Nat × Nat)) (inv : Bool)
    (mode : ScaleMode) (n : Nat) (x y W Ws : Ptr) : Code C :=
  Items.region (sixPart C iv (if n * n < thr.six then .serial else .omp) inv mode n x y W Ws)

/-- `fft_and_mult_twiddle_factor_kernel(2*i, x, y, W)` (src/otfft_eightstep.h:83-146, 226-289) -/
def eightPre (C : Type) [CArith F C] (inv : Bool) (mode : ScaleMode) (N : Nat) (x y W : Ptr)
    (i : Nat) : Task C :=
  let p := 2 * i
  let N1 := N / 8
  bfly (L := 2) (fun j : Fin 8 => vec 2 (x + (p + N1 * j.val)))
    (fun _ : Fin 1 => vec 2 (W + p))
    (fun k : Fin 8 => vec 2 (y + (p + N1 * k.val)))
    (fun X T => difOut (V := Fin 2 → C) (bf8 inv) (fun j => scalepz N mode (X j)) (twOmp inv T))

/-- `transpose_kernel(2*i, y, x)` of the eight-step header (src/otfft_eightstep.h:43-81): for
`q = 0, 2, 4, 6`, `x[8p+q..] = catlo`, `x[8p+q+8..] = cathi` of `y[p+q*N1..]`, `y[p+q*N1+N1..]` -/
def eightTransp (C : Type) [CArith F C] (N : Nat) (y x : Ptr) (i : Nat) : Task C :=
  let p := 2 * i
  let N1 := N / 8
  bfly (L := 2) (b := 0) (fun j : Fin 8 => vec 2 (y + (p + N1 * j.val))) Fin.elim0
    (fun k : Fin 8 => vec 2 (x + (8 * p + 2 * k.val)))
    (fun X _ => transpOut (r := 8) X)

/-- `fwdfftr<log_N,mode>::operator()` (src/otfft_eightstep.h:148-203, 291-345); the calls of `part2`
outside a parallel region (lines 190-197) run on one thread. -/
def eightFFT (C : Type) [CArith F C] (thr : Thr) (iv : Nat → Option (Nat × Nat)) (inv : Bool)
    (mode : ScaleMode) (n : Nat) (x y W Wm Ws : Ptr) : Code C :=
  let N1 := n * n
  let N := 8 * N1
  let pre := tasks1 (cnt N1 2) (eightPre C inv mode N x y W)
  let post := tasks1 (cnt N1 2) (eightTransp C N y x)
  let sub := fun i => Items.region
    (sixPart C iv .serial inv .scale_1 n (y + i * N1) (x + i * N1) Wm Ws)
  if N < thr.eight1 ∨ thr.eight2 ≤ N then
    Code.loop (!decide (N < thr.eight1)) pre ++
    ((List.range 8).flatMap sub ++
    Code.loop (!decide (N < thr.eight1)) post)
  else
    Items.region (Items.loop .omp pre ++ (Items.loop .omp (tasks1 8 fun i => (sub i).toProg) ++
      Items.loop .ompNowait post))

/-- `init_W8xm(n, w)` (src/otfft_algo_sixstep.cpp:117-132) -/
def initW8xm (C : Type) [CArith F C] (thr : Thr) (N : Nat) (W : Ptr) : Code C :=
  Code.loop (!decide (N / 8 < thr.six)) <| tasks1 (N / 8) fun p =>
    storeTask (c := 1) (fun _ => W + p) fun _ => CArith.expj (fmul (thetaW F N) (fofNat p))

/-- `expj(theta * a * b)`, `theta = -2π/(n*n)` (src/otfft_algo_sixstep.cpp:145-148) -/
def nxnVal (C : Type) [CArith F C] (n a b : Nat) : C :=
  CArith.expj (fmul (fmul (thetaW F (n * n)) (fofNat a)) (fofNat b))

/-- the complex part of `init_Wnxn(n, w, ip)` (src/otfft_algo_sixstep.cpp:134-171): one parallel
iteration `u` fills the blocks `(u, v)`, `v = u, …, n/2-1` -/
def initWnxn (C : Type) [CArith F C] (thr : Thr) (n : Nat) (W : Ptr) : Code C :=
  Code.loop (!decide (n * n < thr.six)) <| tasks1 (n / 2) fun u =>
    Code.toProg <| Code.loop false <| tasks1 (n / 2 - u) fun j =>
      let p := 2 * u
      let k := 2 * (u + j)
      let i := sixIdx (n / 2) u (u + j)
      storeTask (c := 4) ![W + (4 * i), W + (4 * i + 1), W + (4 * i + 2), W + (4 * i + 3)]
        ![nxnVal C n k p, nxnVal C n (k + 1) p, nxnVal C n k (p + 1), nxnVal C n (k + 1) (p + 1)]

/-- `init_weight_sub(n, w, a)` (src/otfft_algo_sixstep.cpp:91-115): table of the row transforms -/
def initSub (C : Type) [CArith F C] (thr : Thr) (n : Nat) (W : Ptr) : Code C :=
  if n ≤ 8 then [] else initWt C thr 8 n W

/-- table lengths of `setup2(k)` (src/otfft_algo_sixstep.cpp:55-115): weight, weight_med,
weight_sub -/
def sixTabLen (k : Nat) : Nat × Nat × Nat :=
  let sub := fun n => if n ≤ 8 then 0 else 2 * n
  let nxn := fun n => n * (n + 2) / 2
  if k ≤ 5 then (sub (2 ^ k), 0, 0)
  else if k % 2 = 1 then (2 ^ k / 8, nxn (2 ^ (k / 2 - 1)), sub (2 ^ (k / 2 - 1)))
  else (nxn (2 ^ (k / 2)), 0, sub (2 ^ (k / 2)))

/-- `setup2(k)` of the six-step class, complex tables (src/otfft_algo_sixstep.cpp:55-71) -/
def sixTable (C : Type) [CArith F C] (thr : Thr) (k : Nat) (W Wm Ws : Ptr) : Code C :=
  if k ≤ 5 then initSub C thr (2 ^ k) W
  else if k % 2 = 1 then
    let m := 2 ^ (k / 2 - 1)
    initW8xm C thr (2 ^ k) W ++ (initWnxn C thr m Wm ++ initSub C thr m Ws)
  else
    let m := 2 ^ (k / 2)
    initWnxn C thr m W ++ initSub C thr m Ws

/-- index table of `setup2(k)` (same lines) (`iv[i]`, src/otfft_algo_sixstep.cpp:134-171) -/
def sixIv (k : Nat) : Nat → Option (Nat × Nat) :=
  if k ≤ 5 then fun _ => none
  else if k % 2 = 1 then ivBuild (2 ^ (k / 2 - 1)) else ivBuild (2 ^ (k / 2))

/-- `fwd`, `fwd0`, `fwdu`, `inv`, `invu`, `invn` of the six-step class
(src/otfft_algo_sixstep.cpp:190-384) -/
def sixRun (C : Type) [CArith F C] (thr : Thr) (inv : Bool) (mode : ScaleMode) (k : Nat)
    (x y W Wm Ws : Ptr) : Code C :=
  if k = 0 ∨ 24 < k then []
  else if k ≤ 5 then
    Items.region (difFFT C 8 (bf8 inv) 4 inv .serial mode (2 ^ k) 1 false x y W)
  else if k % 2 = 1 then eightFFT C thr (sixIv k) inv mode (2 ^ (k / 2 - 1)) x y W Wm Ws
  else sixFFT C thr (sixIv k) inv mode (2 ^ (k / 2)) x y W Ws

end OTFFT
