/-
The mixed-radix algorithm: src/otfft_mixedradix.h and src/otfft_algo_mixed.cpp.

Every function of the header exists four times: forward / inverse, single-threaded / OpenMP
(suffix `p`). The parameters `inv` and `path` select the copy.
Line numbers (forward serial, inverse serial, forward OpenMP, inverse OpenMP):
 end2  46-66, 603-623, 1160-1184, 1744-1768      core2 68-101, 625-658, 1186-1221, 1770-1805
 end4  105-141, 662-698, 1225-1265, 1809-1849    core4 143-198, 700-755, 1267-1324, 1851-1908
 end8  202-278, 759-835, 1328-1408, 1912-1992    core8 280-387, 837-944, 1410-1519, 1994-2103
 end5  391-411, 948-968, 1523-1544, 2107-2128    core5 413-448, 970-1005, 1546-1582, 2130-2166
 end3  452-466, 1009-1023, 1586-1601, 2170-2185  core3 468-493, 1025-1050, 1603-1629, 2187-2213
 fftany 499-545, 1056-1102, 1635-1686, 2219-2270 fft 551-597, 1108-1154, 1692-1738, 2276-2322
-/
import Verif.Model.Tables

namespace OTFFT

variable {F C : Type} [DArith F] [CArith F C]

/-- `INT_MAX + 1` (the type `int` of src/otfft_mixedradix.h:499) -/
def intLim : Nat := 2147483648

/-- A stage body: `r` data operands, `b` loaded table entries, `r` results.
(the bodies of the functions at src/otfft_mixedradix.h:46-490) -/
structure BFT (r b : Nat) where
  fn : ∀ {F V : Type} [PZ F V], (Fin r → V) → (Fin b → V) → Fin r → V

/-- core2: `wp` = the loaded entry (src/otfft_mixedradix.h:68-100, 625-657, 1186-1220, 1770-1804) -/
def mix2 : BFT 2 1 where
  fn := fun X T => difOut bf2 X (fun _ => T 0)

/-- core4, `s ≥ 2`: the three loaded entries are `w1p, w2p, w3p`
(src/otfft_mixedradix.h:177-195 and 734-752, 1301-1321, 1885-1905) -/
def mix4s (inv : Bool) : BFT 4 3 where
  fn := fun X T => difOut (bf4 inv) X T

/-- core4, `s = 1`: one loaded entry (conjugated by the inverse), `w2p = w1p·w1p`, `w3p = w1p·w2p`
(src/otfft_mixedradix.h:148-175 and 705-732, 1272-1300, 1856-1884) -/
def mix4one (inv : Bool) : BFT 4 1 where
  fn := fun X T => difOut (bf4 inv) X (fun k => wpow (cj inv (T 0)) (k.val + 1))

/-- core8, `s ≥ 2`: three loaded entries, `w4p = w2p·w2p`, `w5p = w2p·w3p`, `w6p = w3p·w3p`,
`w7p = w3p·w4p` (src/otfft_mixedradix.h:342-384 and 899-941, 1472-1516, 2056-2100) -/
def mix8s (inv : Bool) : BFT 8 3 where
  fn := fun X T =>
    let w1 := T 0
    let w2 := T 1
    let w3 := T 2
    let w4 := mulpz w2 w2
    let w5 := mulpz w2 w3
    let w6 := mulpz w3 w3
    let w7 := mulpz w3 w4
    difOut (bf8 inv) X ![w1, w2, w3, w4, w5, w6, w7]

/-- core8, `s = 1`: one loaded entry and its powers
(src/otfft_mixedradix.h:285-340 and 842-897, 1415-1471, 1999-2055) -/
def mix8one (inv : Bool) : BFT 8 1 where
  fn := fun X T => difOut (bf8 inv) X (fun k => wpow (cj inv (T 0)) (k.val + 1))

/-- the five sums of core5/end5, `w1` the loaded fifth root (src/otfft_mixedradix.h:413-446, 970-1003) -/
def sum5 {F V : Type} [PZ F V] (x : Fin 5 → V) (w1 : V) : Fin 5 → V :=
  let w2 := mulpz w1 w1
  let w3 := mulpz w1 w2
  let w4 := mulpz w2 w2
  let a := x 0
  let b := x 1
  let c := x 2
  let d := x 3
  let e := x 4
  ![addpz (addpz (addpz (addpz a b) c) d) e,
    addpz (addpz (addpz (addpz a (mulpz w1 b)) (mulpz w2 c)) (mulpz w3 d)) (mulpz w4 e),
    addpz (addpz (addpz (addpz a (mulpz w2 b)) (mulpz w4 c)) (mulpz w1 d)) (mulpz w3 e),
    addpz (addpz (addpz (addpz a (mulpz w3 b)) (mulpz w1 c)) (mulpz w4 d)) (mulpz w2 e),
    addpz (addpz (addpz (addpz a (mulpz w4 b)) (mulpz w3 c)) (mulpz w2 d)) (mulpz w1 e)]

/-- the three sums of core3/end3, `w1` the loaded third root (src/otfft_mixedradix.h:468-491, 1025-1048) -/
def sum3 {F V : Type} [PZ F V] (x : Fin 3 → V) (w1 : V) : Fin 3 → V :=
  let w2 := mulpz w1 w1
  let a := x 0
  let b := x 1
  let c := x 2
  ![addpz (addpz a b) c,
    addpz (addpz a (mulpz w1 b)) (mulpz w2 c),
    addpz (addpz a (mulpz w2 b)) (mulpz w1 c)]

/-- core5: loaded entries are the fifth root and `w1p`
(src/otfft_mixedradix.h:413-446, 970-1003, 1546-1580, 2130-2164) -/
def mix5 : BFT 5 2 where
  fn := fun X T =>
    let w1p := T 1
    let w2p := mulpz w1p w1p
    let w3p := mulpz w1p w2p
    let w4p := mulpz w2p w2p
    ![sum5 X (T 0) 0, mulpz (sum5 X (T 0) 1) w1p, mulpz (sum5 X (T 0) 2) w2p,
      mulpz (sum5 X (T 0) 3) w3p, mulpz (sum5 X (T 0) 4) w4p]

/-- core3: loaded entries are the third root and `w1p`
(src/otfft_mixedradix.h:468-491, 1025-1048, 1603-1627, 2187-2211) -/
def mix3 : BFT 3 2 where
  fn := fun X T =>
    let w1p := T 1
    let w2p := mulpz w1p w1p
    ![sum3 X (T 0) 0, mulpz (sum3 X (T 0) 1) w1p, mulpz (sum3 X (T 0) 2) w2p]

/-- end stages of radix 2, 4, 8 load no table entries
(src/otfft_mixedradix.h:46-64, 105-139, 202-276 and the inverse and OpenMP copies) -/
def mixEndBF {r : Nat} (B : BF r) : BFT r 0 where
  fn := fun X _ => B.fn X
/-- src/otfft_mixedradix.h:391-410, 948-967, 1523-1543, 2107-2127 -/
def mixEnd5 : BFT 5 1 where
  fn := fun X T => sum5 X (T 0)
/-- src/otfft_mixedradix.h:452-465, 1009-1022, 1586-1600, 2170-2184 -/
def mixEnd3 : BFT 3 1 where
  fn := fun X T => sum3 X (T 0)

/-- Table index `a` of the forward functions is `N - a` in the inverse ones.
(src/otfft_mixedradix.h:68-490 against 625-1047) -/
def mixIdx (inv : Bool) (N a : Nat) : Nat := if inv then N - a else a

/-- A core: `for p < m, for q < s step L` (single-threaded), or the flattened `omp for` over
`N/(r·L)` iterations. `tw p k` is the index of table entry `k` (entries hoisted out of the loops
by the code are loaded in every iteration here).
(src/otfft_mixedradix.h:68-100 (core2) and the cores of radix 4, 8, 5, 3; OpenMP 1186-1220 and the others) -/
def mixCore (C : Type) [CArith F C] {r b : Nat} (S : BFT r b) (L : Nat) (tw : Nat → Fin b → Nat)
    (path : Path) (n s : Nat) (x y W : Ptr) : Items C :=
  let N := n * s
  let N1 := N / r
  let body : Nat → Nat → Task C := fun p i =>
    let q := L * i
    let sp := s * p
    bfly (fun j : Fin r => vec L (x + (q + sp + N1 * j.val)))
      (fun k => dup L (W + tw p k))
      (fun k : Fin r => vec L (y + (q + r * sp + s * k.val)))
      (fun X T => S.fn (V := Fin L → C) X T)
  match path with
  | .serial => .loop .serial <| tasks2 (n / r) (cnt s L) body
  | .omp => .loop .omp <| tasks1 (N / (r * L)) fun i => body (i / (s / L)) (i % (s / L))

/-- `#pragma omp for` in the OpenMP copy (src/otfft_mixedradix.h:1194) -/
def kindBar : Path → LoopKind
  | .serial => .serial
  | .omp => .omp
/-- `#pragma omp for nowait` in the OpenMP copy (src/otfft_mixedradix.h:1165) -/
def kindNowait : Path → LoopKind
  | .serial => .serial
  | .omp => .ompNowait

/-- An end stage: `for q < s step L`; `single` marks the branch `s = 1` of radix 2, 4, 8
(`#pragma omp single`), the loops of the OpenMP copies have `nowait`.
(src/otfft_mixedradix.h:46-64 (end2), 1160-1181 (OpenMP) and the ends of radix 4, 8, 5, 3) -/
def mixEnd (C : Type) [CArith F C] {r b : Nat} (S : BFT r b) (L : Nat) (tw : Fin b → Nat)
    (path : Path) (single : Bool) (s : Nat) (x z W : Ptr) : Items C :=
  let kind : LoopKind := if single then .serial else kindNowait path
  .loop kind <| tasks1 (cnt s L) fun i =>
    let q := L * i
    bfly (fun j : Fin r => vec L (x + (q + s * j.val)))
      (fun k => dup L (W + tw k))
      (fun k : Fin r => vec L (z + (q + s * k.val)))
      (fun X T => S.fn (V := Fin L → C) X T)

/-- `while (n%k != 0) { if (k*k > n) { k = n; break; } k += 2; }`; `none` is signed overflow of
`k*k`. (src/otfft_mixedradix.h:505-508, 1062-1065) -/
def findK (n k : Nat) : Option Nat :=
  if n % k = 0 then some k
  else if intLim ≤ k * k then none
  else if _h : k * k > n then some n
  else findK n (k + 2)
termination_by n + 2 - k
decreasing_by
  have : k ≤ n := by
    rcases Nat.eq_zero_or_pos k with h0 | h0
    · omega
    · have := Nat.le_mul_of_pos_left k h0; omega
  omega

/-- `for (j…) { a = x[…]; wij = W[…(i*j)%k…]; z = z + a*wij; }` continued by `κ`; `i*j` is an
`int` product. (src/otfft_mixedradix.h:512-517, 532-536) -/
def anyInner (C : Type) [CArith F C] (k i : Nat) (xa wa : Nat → Ptr) :
    List Nat → C → (C → Task C) → Task C
  | [], z, κ => κ z
  | j :: js, z, κ => .load (xa j).loc fun a =>
      if i * j < intLim then
        .load (wa (i * j % k)).loc fun w => anyInner C k i xa wa js (addpz z (mulpz a w)) κ
      else .ub

/-- body of the loops over `i` of `fftany`; `wip = none` in the last stage (no twiddle factor)
(src/otfft_mixedradix.h:511-519, 531-539) -/
def anyBody (C : Type) [CArith F C] (k : Nat) (xa wa : Nat → Ptr) (wip : Option (Nat → Ptr))
    (ya : Nat → Ptr) : List Nat → Task C
  | [] => .ret ()
  | i :: is => anyInner C k i xa wa (List.range k) (CArith.cmk (fofNat 0) (fofNat 0)) fun z =>
      match wip with
      | none => .store (ya i).loc z (anyBody C k xa wa wip ya is)
      | some w => .load (w i).loc fun t => .store (ya i).loc (mulpz z t) (anyBody C k xa wa wip ya is)

/-- `setpz(x[p], getpz(y[p]))` for `p < N` (src/otfft_mixedradix.h:521) -/
def copyTasks (C : Type) (N : Nat) (x y : Ptr) : List (Task C) :=
  tasks1 N fun p => bfly (L := 1) (a := 1) (b := 0) (c := 1) (fun _ => vec 1 (y + p)) Fin.elim0
    (fun _ => vec 1 (x + p)) (fun X _ => X)

/-- `fwdfftany` / `invfftany` and the OpenMP copies
(src/otfft_mixedradix.h:499-545, 1056-1102, 1635-1686, 2219-2270) -/
def mixAny (C : Type) [CArith F C] (inv : Bool) (path : Path) (r n s : Nat) (eo : Bool)
    (x y W : Ptr) : Items C :=
  let N := n * s
  match findK n r with
  | none => [([.ub], true)]
  | some k =>
    if k = n then
      let body := fun q => anyBody C k (fun j => x + (q + s * j))
        (fun a => W + mixIdx inv N (s * a)) none (fun i => y + (q + s * i)) (List.range k)
      Items.loop (kindBar path) (tasks1 s body) ++
      (if eo then [] else
        Items.loop (kindNowait path) (copyTasks C N x y))
    else
      if _h : k < 2 ∨ n = 0 then [([.ub], true)] else
      let m := n / k
      let ms := m * s
      let body := fun p q =>
        let sp := s * p
        anyBody C k (fun j => x + (q + sp + ms * j)) (fun a => W + mixIdx inv N (ms * a))
          (some fun i => W + mixIdx inv N (i * sp)) (fun i => y + (q + sp * k + s * i)) (List.range k)
      (match path with
      | .serial => Items.loop .serial (tasks2 m s body)
      | .omp => Items.loop .omp (tasks1 ms fun h => body (h / s) (h % s))) ++
      mixAny C inv path k m (k * s) (!eo) y x W
termination_by n
decreasing_by exact Nat.div_lt_self (by omega) (by omega)

/-- `fwdfft` / `invfft` and the OpenMP copies
(src/otfft_mixedradix.h:551-597, 1108-1154, 1692-1738, 2276-2322) -/
def mixFFT (C : Type) [CArith F C] (inv : Bool) (path : Path) (n s : Nat) (eo : Bool)
    (x y W : Ptr) : Items C :=
  let N := n * s
  let z := if eo then y else x
  if _hN : N < 2 then []
  else if n % 8 = 0 then
    if n = 8 then
      if 2 ≤ s then mixEnd C (mixEndBF (bf8 inv)) 2 Fin.elim0 path false s x z W
      else mixEnd C (mixEndBF (bf8 inv)) 1 Fin.elim0 path true s x z W
    else
      (if 2 ≤ s then mixCore C (mix8s inv) 2 (fun p k => mixIdx inv N ((k.val + 1) * (s * p))) path n s x y W
       else mixCore C (mix8one inv) 1 (fun p _ => p) path n s x y W) ++
      mixFFT C inv path (n / 8) (8 * s) (!eo) y x W
  else if n % 4 = 0 then
    if n = 4 then
      if 2 ≤ s then mixEnd C (mixEndBF (bf4 inv)) 2 Fin.elim0 path false s x z W
      else mixEnd C (mixEndBF (bf4 inv)) 1 Fin.elim0 path true s x z W
    else
      (if 2 ≤ s then mixCore C (mix4s inv) 2 (fun p k => mixIdx inv N ((k.val + 1) * (s * p))) path n s x y W
       else mixCore C (mix4one inv) 1 (fun p _ => p) path n s x y W) ++
      mixFFT C inv path (n / 4) (4 * s) (!eo) y x W
  else if n % 2 = 0 then
    if n = 2 then
      if 2 ≤ s then mixEnd C (mixEndBF bf2) 2 Fin.elim0 path false s x z W
      else mixEnd C (mixEndBF bf2) 1 Fin.elim0 path true s x z W
    else
      (if 2 ≤ s then mixCore C mix2 2 (fun p _ => mixIdx inv N (s * p)) path n s x y W
       else mixCore C mix2 1 (fun p _ => mixIdx inv N p) path n s x y W) ++
      mixFFT C inv path (n / 2) (2 * s) (!eo) y x W
  else if n % 5 = 0 then
    if n = 5 then mixEnd C mixEnd5 1 (fun _ => if inv then 4 * s else s) path false s x z W
    else
      mixCore C mix5 1 (fun p k => if k.val = 0 then (if inv then N / 5 * 4 else N / 5)
        else mixIdx inv N (s * p)) path n s x y W ++
      mixFFT C inv path (n / 5) (5 * s) (!eo) y x W
  else if n % 3 = 0 then
    if n = 3 then mixEnd C mixEnd3 1 (fun _ => if inv then 2 * s else s) path false s x z W
    else
      mixCore C mix3 1 (fun p k => if k.val = 0 then (if inv then N / 3 * 2 else N / 3)
        else mixIdx inv N (s * p)) path n s x y W ++
      mixFFT C inv path (n / 3) (3 * s) (!eo) y x W
  else mixAny C inv path 7 n s eo x y W
termination_by n
decreasing_by
  all_goals
    have : n ≠ 0 := by rintro rfl; exact _hN (by show 0 * s < 2; omega)
    exact Nat.div_lt_self (by omega) (by omega)

/-- table of the mixed-radix class (`setup`, src/otfft_algo_mixed.cpp:38-54):
`W[p] = (cos(p*theta0), -sin(p*theta0))`, `p ≤ n` -/
def mixTable (C : Type) [CArith F C] (thr : Thr) (n : Nat) (W : Ptr) : Code C :=
  let theta0 : F := fdiv (fmul (fofNat 2) fpi) (fofNat n)
  Code.loop (!decide (n < thr.mixed)) <| tasks1 (n + 1) fun p =>
    storeTask (c := 1) (fun _ => W + p) fun _ =>
      CArith.cmk (fcos (fmul (fofNat p) theta0)) (fneg (fsin (fmul (fofNat p) theta0)))

/-- `for (k < N) setpz(x[k], mulpd(cmplx(f,f), getpz(x[k])))`, the scale pass
(src/otfft_algo_mixed.cpp:60-75, 88-105, 128-163) -/
def scalePass (C : Type) [CArith F C] (par : Bool) (N : Nat) (f : F) (x : Ptr) : Code C :=
  Code.loop par <| tasks1 N fun k => bfly (L := 1) (a := 1) (b := 0) (c := 1) (fun _ => vec 1 (x + k))
    Fin.elim0 (fun _ => vec 1 (x + k)) (fun X _ j l => scl f (X j l))

/-- `fwd`, `fwd0`, `fwdu`, `inv`, `invu`, `invn` of the mixed-radix class
(src/otfft_algo_mixed.cpp:60-158); the normalisation is a separate pass:
`1.0/N` for `scale_length`, `sqrt(1.0/N)` for `scale_unitary`. -/
def mixRun (C : Type) [CArith F C] (thr : Thr) (inv : Bool) (mode : ScaleMode) (N : Nat)
    (x y W : Ptr) : Code C :=
  let path : Path := if N < thr.mixed then .serial else .omp
  let par := !decide (N < thr.mixed)
  Items.region (mixFFT C inv path N 1 false x y W) ++
  match mode with
  | .scale_1 => []
  | .scale_length => scalePass C par N (fdiv (fofNat 1) (fofNat N)) x
  | .scale_unitary => scalePass C par N (fsqrt (fdiv (fofNat 1) (fofNat N))) x

end OTFFT
