# A Lean 4 model of DEWETRON/otfft

Contents: 1 shape of the model · 2 trusted base and simplifications · 3 modules and the code they
model · 4 what is not modelled · 5 plan and proof per property · 6 what was found · 7 mutation tests.

## 1. Shape of the model

* **Arithmetic** (`Verif/Model/Arith.lean`). The code is modelled over an abstract class `CArith F C`
  (F = double, C = complex_t / one SIMD lane) that has operations but *no laws*. Statements that do
  not need laws (memory safety, race freedom, schedule independence, alias entry points, serial =
  OpenMP, object histories, threads) are proved for *every* instance, hence for IEEE doubles with or
  without FMA. Statements about values (DFT, round trips ...) are proved at the exact instance
  `F = ℝ`, `C = ℂ` (`instCArithRealComplex`).
* **Memory** (`Model/Mem.lean`). A heap maps a location (block, index) to: not allocated /
  allocated but uninitialised / a value. Straight-line code is a free monad `Prog` of loads, stores
  and undefined behaviour. A transform is a `Code`: a list of *phases* separated by barriers, each
  phase a list of tasks (one task per loop iteration of an `omp for`); serial loops are phases with
  one task; `nowait` loops share a phase (`Model/Items.lean`). The semantics interleaves the tasks of a
  phase arbitrarily, at single load/store granularity. Undefined behaviour (out of bounds,
  uninitialised read, null algorithm pointer, signed overflow, *data race*) is a distinct bad outcome.
  `AllSched` says: under every schedule no undefined behaviour, termination, and the final heap
  satisfies the postcondition.
* **Programs** (`Model/Act.lean`). Constructors, `setup`, destructors and client programs are trees of
  `malloc` / `free` / run code. `malloc` may always fail (also for size 0) and may return any block
  that is not allocated. `wp` quantifies over all outcomes; `Runs` is a single execution.
* **Client programs** (`Model/Api.lean`, `Model/Pool.lean`): `Cls.lifetime n ops` = construct, then any list
  of `setup` / transform / store, destroy; `Client` = trees over pools of objects of the six
  classes, branching on exceptions. **Threads** (`Model/Threads.lean`): any number of client threads, each with
  its own OpenMP team, interleaved at load/store granularity; races between threads are UB.
* **Kernels** are written as gather / compute / scatter steps (`bfly`) whose pointer expressions and
  butterfly expressions are transcribed from the headers.
* **Lengths** are `Int`, as in the interface; negative values and values whose size computations overflow are
  covered (C38, C44, C45).
* **Proof layers**: (1) code → pure function on index-to-value maps, for any arithmetic, with footprint
  (`Good R D c h h'`); (2) pure function → DFT, over ℂ; (3) object invariants (`ClsSpec`) by induction over
  histories, pools, and forks.

Statements use only the model's public vocabulary (`complexFFT`, `create`, `setup`, `call`, `Runs`, `MayUB`,
`CStep`/`Reach`) and the small specifications in `Verif/Spec/*` (DFT formulas, "array holds values", "valid
length", "history", "fork"). No theorem statement mentions a proof-layer invariant.

## 2. Trusted base and simplifications

Trusted: the Lean 4.33 kernel; the axioms `propext`, `Classical.choice`, `Quot.sound` (every theorem in
MANIFEST depends on no others; `#print axioms`, rechecked by vcheck); the reading of the C++ that produced the model,
with these conventions:

* *Floating point.* Value statements C01–C45 are about exact real arithmetic. C46, C47 and C48 bound the error of rounded arithmetic: they
  assume the standard model (`Spec/Float`: relative error 2⁻⁵³ per operation, underflow error 2⁻¹⁰⁷⁵, sin/cos within 2·2⁻⁵³,
  nothing about overflow), which IEEE 754 and a 1-ulp libm give; contraction by the compiler is not modelled. The law-free
  statements hold for any arithmetic. Trigonometric constants are exact reals; `C34_constants` shows that the
  decimal literals in the source round to the same doubles as the numbers they stand for. `cos`, `sin`, `sqrt` are
  functions of the arithmetic (exact in exact arithmetic); `mysqrt` is the recursion of the source (C59). C43 (bit-identical results) assumes only IEEE's sign laws (`SignLaws`), so not NaN payloads or directed
  rounding. C50 and C51 hold for any arithmetic (`FArith`) with the stated closure; `Spec/Hom` gives IEEE 754 with
  infinities, NaN and signed zeros, with the rounding function as parameter, as an instance. C79–C81 attach to every
  value whether an operation it comes from raised overflow, division by zero or invalid (result not finite) or underflow
  (as x86 does: the result rounded to 53 bits is below 2^-1022 and the delivered result is inexact); infinities and NaN
  in the input count as raised. A raised value implies the processor's sticky flag, so the theorems apply to a run that
  ends with clear flags. In all theorems about `Rounded`, `Ieee`, `Dbl64` and `Flagged` the C library's `cos` and `sin` are a
  parameter (`[Libm]`, Spec/Libm): any functions that return doubles within 2^-52 of the exact values for arguments up to 8
  and are exact at 0; correctly rounded ones are an instance (`Libm.nearest`). Most of these theorems use none of the laws.
* *Integers.* Overflow is modelled for the products and sums whose size is not bounded by an array length:
  `i*j` and `k*k` (mixed radix), `p*p` and `L *= 2` (Bluestein), `2*N`, `n+1` (set-up). Linear index arithmetic
  inside arrays (`s*p + q` …, each below the length of an array whose allocation succeeded) is natural-number
  arithmetic. A negative `N` field is stored as 0; every reader tests `N < 1`, `N < 2` or `k < N` first.
  A `malloc` request of negative size (huge as `size_t`) always fails.
* *Objects.* The fields of an object are Lean values, not heap cells (the blocks of algorithm objects made by `new` inside `setup` are blocks of the
  heap; so is the block of the outer `new` in `Model/Public`, C49). The index table `iv` of the six-step algorithm
  is a function (C40 proves that it is the table the code fills).
* *Arrays of double*: a cell holds a complex number whose real part is the double; copying copies the cell.
  `getpz(x+2*p)` on `double*` is two loads.
* *OpenMP*: barrier between phases, conflicting unsynchronised accesses = UB, no other memory-model effects.
  Public functions are called outside a user's own parallel region (an orphaned `omp for` would bind to it).
* *SIMD*: an n-lane kernel step is n one-lane steps; `Model/Simd` and C34/C43 justify this per instruction set from the
  intrinsics' documented semantics, which are trusted. `inc/otfft_types.h:15` defines USE_UNALIGNED_MEMORY, so
  alignment is not a precondition.
* `assert` is compiled out (NDEBUG). `__restrict` is not modelled (the separation hypotheses `Sep` imply it except
  inside RFFT, where the code itself reuses its argument as work area).
* *Uniformity of copies.* The twelve headers `otfft_avxdi{f,t}{4,8,16}{,omp}.h`, the six `otfft_algo_di*.cpp` and the
  four copies of each mixed-radix function are modelled by one template each. `tools/conform.py` (outside the proofs; it
  needs only Python) reads all their copies as text, follows their data flow with symbolic values and finds the same loads,
  stores, terms, order and loop annotations as in the Lean templates: 112 kernels in 672 instances, all dispatch switches,
  and 856 complete traces of the mixed-radix functions.
* *The whole library against the model.* `tools/trace/trace.py` (outside the proofs; Python and Lean, 11 min) runs the text of
  `Verif/Model/{Mem … Api}` itself with a symbolic arithmetic (a value is a fingerprint of the term that computes it) and compares it with
  /repo read as text by a symbolic evaluator of the C++ subset used (templates, classes, constructors and destructors, exceptions, OpenMP
  pragmas): every request and release of memory in order, every store (place and term), parallel iterations one by one, undefined behaviour on
  both sides. 7000 programs: raw algorithms, the six classes, lengths −100 … 1024, all entry points, thresholds small and large and mixed,
  re-setup histories, the i-th allocation failing; 1.5 million stores. No difference. The default thresholds, the dispatch table and the 78
  length switches (also for lengths that are not executed) are compared too. `trace.py selftest` edits single tokens of the C++ text; the
  edits not noticed were in code listed in §4, in unused parameter names, or in lengths the sample left out (the sample was then extended).

## 3. Modules

| module | models |
|---|---|
| `Model/Mem`, `Items`, `Act`, `Threads` | semantics only (no code of /repo) |
| `Model/Arith` | `complex_t`, the operations of `otfft_misc.h` used by kernels |
| `Model/Simd` | all primitives of `otfft_misc.h` for SSE2/SSE3/FMA/AVX/AVX-512 and emulated register types; `complex_t` |
| `Model/Factory` | `src/otfft.cpp` CPU detection, factories, `unique_ptr_delete` |
| `Model/Butterfly`, `Stockham`, `Tables` | `otfft_avxdi{f,t}{4,8,16}{,omp}.h`, `otfft_fwdu.h`-style weight tables, `otfft_algo_di*.cpp` |
| `Model/MixedRadix` | `otfft_mixedradix.h`, `otfft_algo_mixed.cpp` |
| `Model/SixStep` | `otfft_sixstepsq.h`, `otfft_eightstep.h`, `otfft_algo_sixstep.cpp` |
| `Model/Objects` | `simd_array`, `FFT_IF` objects, `FFT0`, `FFT` (`otfft_algo.cpp:1-200`) |
| `Model/Real` | `RFFT`, `DCT0`, `DCT` (`otfft_algo.cpp:202-727`) |
| `Model/Bluestein` | `otfft_algo.cpp:729-1073` |
| `Model/Api`, `Pool` | client programs over `inc/otfft.h` |
| `Spec/*` | DFT, DCT, memory predicates, histories, pools, forks, CPU manuals, complex arithmetic |
| `Proof/Sched, Kernel, Stage, Region, Lanes, Loop, Phase, Steps` | independence of tasks ⇒ every schedule agrees; gather/scatter lemmas |
| `Proof/Stockham*, DFTStage, BFly, Tables*, Mixed*, Tri, Six*, Eight*` | kernels → pure function → DFT |
| `Proof/Act, Objects, Engine, Session, FFTObj, Once, AlgoOnce, RFFT*, DCT*, Blue*, History, Raw` | classes, histories |
| `Proof/Overflow, Limits, Fail, Lengths, Stuck, Odd, OddDCT, OddHist` | undefined behaviour, failing allocations, unusual and odd lengths |
| `Proof/L2, L2Stage, L2Out, L2Mixed, L2Real, Product` | the same in the 2-norm |
| `Proof/MySqrt, MySqrtRound, Newton` | the compile-time square root |
| `Proof/Binary64` | IEEE 754 binary64 satisfies the laws |
| `Proof/Round, RoundTab, RoundLaws, RoundReal` | rounding errors of the primitives and tables per instruction set |
| `Proof/ApLaws, ApOut, ApMixed, ApReal, ApBlue` | propagation of errors through all kernels, for any arithmetic with those laws |
| `Model/Public`, `Spec/Public`, `Proof/Public` | factory, smart pointer, object block on the heap, deleter, as one program |
| `Model/ComplexT`, `Model/SimdArray` (+ `Spec`) | `complex_t` members that write through references; client blocks over `simd_array` |
| `Model/Helpers` | routines of the kernel headers that nothing calls |
| `Spec/Identities` | the textbook identities of a Fourier transform |
| `Spec/Work` | counted executions (`ReachIn`, `RunsIn`), budgets of client programs |
| `Spec/Libm, Hom, Sign`, `Proof/Hom, HomTarget, Dbl, Sign, TimesI, Normal, Impulse` | relations between runs (C50, C51, C64, C65, C66), exact results (C67); IEEE 754 with infinities and NaN |
| `Spec/Flags`, `Proof/Par, ParTarget, Flags` | two different arithmetics side by side; IEEE 754 with exception flags (C79–C81) |
| `Proof/Pool, Foot, Fork, Threads, Race, Simd` | pools of objects, threads, SIMD |
| `Props/*` | the property theorems with their non-vacuity examples |

## 4. Not modelled

Build files (`CMakeLists.txt`, `cmake/`, CI), `unit_tests/`, `version_info/`; the dead header `src/otfft_fwdu.h`; `speedup_magic` of `otfft_misc.h` (nothing calls it, it has no effect);
the number of cores, which `src/otfft.cpp:139-181` reads and nobody uses; the C++ exception
objects themselves (only "throws"); running time (only the number of accesses and the memory requested, C54); ARM/other platforms (the source has none).

## 5. Plan per property

| id | model | proof |
|----|-------|-------|
| C01–C05 | all power-of-two kernels, mixed radix, dispatcher | layer 1 per kernel shape, layer 2 by induction on the recursion, case split on the dispatcher |
| C06, C08, C09, C39 | same | corollaries via DFT inversion, linearity, Parseval, convolution over ℂ |
| C07 | API layer | programs are equal, any arithmetic |
| C10, C11 | heap model, interleaving semantics | footprints of tasks are independent ⇒ every interleaving agrees (general theorem), instantiated per loop, after any history |
| C12 | mixed-radix serial/OMP code | both have the same output function, any arithmetic |
| C13 | kernels | all equal the DFT |
| C14, C18 | dispatcher null pointer | every execution is undefined behaviour (the expected property is false of the code) |
| C15–C17, C19 | RFFT code | split real FFT identity over ℂ |
| C20, C21 | DCT code | reduction to real DFT of a permuted signal |
| C22–C24 | Bluestein code | chirp identity, circular convolution with zero padding; integer bounds by arithmetic |
| C25 | mixed radix | instance of C01 |
| C26 | mixed radix with int32 checks | iff: positive theorem for prime factors ≤ 46341, every execution UB otherwise |
| C27, C29 | decision logic of otfft.cpp over CPUID words | case analysis |
| C28 | same, with x86 fault conditions from the manuals | exact iff; both exceptions shown reachable |
| C30–C32, C37, C38 | object/allocation state machine | invariants by induction on histories; failing `malloc` at any point; what a failed `setup` leaves |
| C33 | forked client threads over a pool | views: each thread runs in a virtual world; independence of footprints; explicit race witness for shared work areas |
| C34 | `otfft_misc.h` primitives per instruction set | lane-wise equality, then equality with ℂ operations; rational bounds for the literals |
| C35 | table-construction loops | layer 1; values over ℂ |
| C36 | factor search | well-founded recursion, loop invariant; pass count by induction; termination by accessibility of `CStep` |
| C40 | six-step table | bijection by arithmetic |
| C41 | pools of objects, client trees | invariant on disjoint ownership by induction on the program |
| C42 | FFT0/DCT0 with caller's work areas | same output functions as the self-contained classes, any arithmetic |
| C43 | kernels over two instances (with/without sign-equivalent primitives) | homomorphism of arithmetic structures; code is parametric |
| C44 | `setup`/constructors over `Int` | every path ends in a throw (`Act.All`), `wp` gives safety |
| C45 | same | iff: `wp` for accepted lengths, explicit overflow execution for the others |
| C46 | all kernels over rounded arithmetic | relation `Ap a a' M k` (computed value `a'` of `a`, magnitude M, k roundings) carried through butterflies, stages, recursions next to the exact run |
| C47 | RFFT and DCT0 over rounded arithmetic | same relation through the pre/post-processing loops around the half-length transform |
| C48 | Bluestein over rounded arithmetic | same relation through chirp, three transforms, products; round trip by linearity of the exact transform |
| C49 | `publicLife`: selection (C27), object block, constructor, client program, deleter (C29) | the boxed life is malloc 0 ; life ; free (`Cls.boxed_lifetime`), then C31, C43, C46–C48 |
| C50 | all kernels over any double arithmetic | ternary logical relation through all output functions (code is parametric in the arithmetic and branches on lengths only), per-target primitives, IEEE instance by cases |
| C51 | same | same relation with `bad c ∨ a = b`: one computed run beside two exact runs, then the exact DFT of a unit vector is nowhere 0 |
| C52 | `complex_t` in a memory of doubles | case analysis on aliasing; real algebra |
| C53 | programs over arrays | ownership invariant by induction on the program; the opposite invariant (two owners or a dangling owner) persists to the end |
| C54 | steps of an execution counted (`Spec/Work`) | additive bound on the accesses of a task list, preserved by every step; recursion on the length; history invariant gives the object's state |
| C55 | identities as a structure over the relation "transform e takes u to U in every memory" (`Spec/Identities`) | the relation is the closed form of C01-C06/C22 (a run exists, so results are unique); reindexing of sums of roots of unity |
| C56 | tones and sines as inputs, magnitudes of the output bins | geometric sums against |sin|; with the error bounds of C46/C47 for doubles |
| C57 | `RFFT`, `DCT0`, `DCT` as modelled for C15-C21, odd lengths (`assert` compiled out) | explicit result of the odd-length loops (`Proof/Odd`); configurations from which every schedule reaches an uninitialised read or an out-of-bounds write (`Proof/Stuck`, `Proof/OddDCT`); the work area is uninitialised after every history (`Proof/OddHist`) |
| C58 | the same arithmetic as C46 | relation `Flt.Op` between an exact linear map and the computed one (operator 2-norm, number of roundings), closed under composition, block and permutation structure (`Proof/L2`), applied to butterflies, stages (`L2Stage`), recursions (`L2Out`) and mixed radix (`L2Mixed`); Parseval turns it into a relative error |
| C59 | `sqrt_aux`, `mysqrt` as a recursion on doubles (`Model/Arith`), used by `scalepz` | a fixed point of the rounded iteration satisfies a quadratic equation, whence the error (`Proof/MySqrtRound`); rounding to 53 bits computed on natural numbers, proved equal to the real-number definition, then the kernel runs the recursion for each of the 31 powers of two (`Proof/Newton`) |
| C60 | binary64 with gradual underflow, signed zeros, infinities and NaN (`Spec/Binary64`) | the definition satisfies the laws assumed by the accuracy theorems (`Proof/Binary64`), so those give finiteness; the overflow by evaluating the length-3 transform |
| C61 | `RFFT.fwdWith` over any arithmetic | the value of every output cell is known for any arithmetic (`rfftOut`); the upper half is written by `cnjpz` |
| C62 | the same as C47 | computed vectors `Flt.VAp` (2-norm bound, underflow reserve, number of roundings) through packing, half-length FFT (`fftOut_op` of C58), post- and pre-processing, reordering and rotation (`Proof/L2Real`); the exact stages are isometries up to a known factor (Parseval; for the inverse only on conjugate symmetric vectors, which the computed spectrum is by C61) |
| C63 | ComplexFFT twice forward, `Cpx.mul` entry by entry, once inverse | C58 for the three transforms, error of a product of two computed vectors in the 2-norm (`Proof/Product`), convolution theorem for the exact transforms; Cauchy-Schwarz turns the product of two 2-norms into a sum over the entries; for integers an error below 1/2 is removed by rounding |
| C64 | the power-of-two kernels and tables, forward and inverse, over any `FArith` with `Spec/Sign.Signed` | simulation between the two runs: the relation `ConjOf` is kept by every butterfly, table product and scaling step (`Proof/Sign`); `Ieee.signed_laws` gives the instance |
| C65 | the same transforms, two runs of one function | `TimesI` satisfies the laws `LinLaws` that the relational proof of C50 needs (`Proof/Hom`, `Proof/TimesI`), except right products under FMA |
| C66 | normalised and unnormalised transforms over the reals with a rounding that commutes with division by n | relational proof along the passes (`Proof/Normal`): equal up to the pass that scales, a factor 1/n apart after it; mixed radix scales in one final loop, so any arithmetic will do |
| C67 | the transforms of an impulse and of a constant, over any arithmetic that is exact on 0 and 1 (`FlatLaws`) | induction over the passes with the invariants "constant along the stride" and "zero beyond the stride" (`Proof/Impulse`); the tables are 1 at index 0 |
| C68 | two forward real transforms, a product with `operator*` and an inverse | C15, C16 and the convolution theorem; C62 for each transform, `prod_err` on the folded spectra, which are conjugate symmetric bit for bit (C61) |
| C69 | Bluestein's algorithm as in C48 | error analysis in the 2-norm of each stage: chirp, padding, two transforms (C58), product, inverse transform, chirp, normalisation (Proof/L2Blue) |
| C70 | all classes over IEEE doubles | zeros are their own opposites, which the transforms carry over (C50); the results are finite (C60); a finite number that is its own opposite is a zero |
| C71 | `Model/Helpers`: `init_W`, `modq`, `getwp2`, `swappz`, `setup(int)` | table loops as in C35 (eightfold symmetry, stores of one iteration may hit a cell twice); order of the roots of unity for the wrong lengths; `setup(int)` equals `setup2` of the logarithm |
| C72 | real transforms, as C67 | C67's `FlatLaws` for the half-length transform; the post-processing subtracts equal numbers; table entry 0 is (1+i)/2 |
| C73 | cosine transforms, as C72 | C72 for the inner real transform, reordering of a constant, table entry 0 is 1 |
| C74 | real and cosine transforms, as C66 | `rfftOut` by cases; C66's `fftOut_div` for the half-length inverse and C50's homogeneity for the factor 2 |
| C75 | the algorithm classes used directly (`algoOnce`, Spec/Kernel) in any `Binary64` arithmetic | the class-by-class lemmas behind C46 and C58 (`algoOut_ap`, `algoOut_op`) |
| C76 | the same, any arithmetic with the laws of C50, C51, C64, C67 | the class-by-class lemmas behind those properties (`algoOut_hom`, `algoOut_conj`, `algo_imp`, `algo_con`) |
| C77 | relation "input values to output values" of the objects over any `Binary64` arithmetic (Spec/NearIdentities) | accuracy (C46–C48) plus the exact identities (C55) and linearity of the exact transform |
| C78 | two objects of different class or build over one `Binary64` arithmetic | C46–C48 for both |
| C79 | `Flagged`: IEEE 754 doubles paired with "an operation this value comes from raised a flag"; `Linked` relations between two arithmetics | a relational copy of the homomorphism proof of C50 for two different arithmetics (Proof/Par, Proof/ParTarget); every operation without a flag rounds like `rnd53` (Proof/Flags) |
| C80 | as C79 | C79, C46–C48 for `Rounded rnd53`, and scaling by powers of two (C50) to remove the range limits |
| C81 | as C79 | C79, C50_scale and C66/C74 for `Rounded rnd53` |
| C82 | `Twin` (Proof/Exact64): a double and a rounded real number side by side | `Twin` satisfies the hypotheses of the accuracy theorems with "finite and equal" in place of "finite"; those theorems show that every result is so; C79's transfer projects to both halves |
| C83 | IEEE doubles | C82 applied to C67, C72, C73 |
| C84 | rounded reals, IEEE doubles; `SumOf` (Spec/SumTree): a result obtained by additions only | induction over the stages of every kernel (Proof/DC): element 0 of each stage is a sum of its inputs since twiddle factor 0 is exactly 1; exactness and the relative bound by induction over the additions; IEEE by C82 |
| C85 | the same | C84 for the inner transform of half length, then one addition or subtraction; IEEE by C82 |
| C86 | any binary64 arithmetic; one object, a list of pairs of calls of any length | induction over the list: every round trip adds at most the error of one round trip (C58, C62, C69) of data that are at most 3/2 as large; `RFFT.trips` for the two arrays of RealFFT |
| C87 | the same | C86 and an error below 1/2 in every element |
| C88 | rounded reals (`rnd64`) and IEEE doubles (`Dbl64`) | the addition tree of C84 with the place of the normalisation followed through the stages (`Scl`, `fft_sum_scaled`); for the real classes the division at the end (`rfft_ends`); IEEE by C82 |
| C89 | IEEE doubles with flags (`Flagged`) | where no flag is raised IEEE and unlimited exponent agree (C79); there everything scales by powers of two, so the bounds of C58, C62 and C69 hold for every magnitude (`scale_free` with the 2-norm) |
| C90 | any rounded arithmetic, IEEE doubles | Proof/Nyquist follows one element through every kernel (Stockham, six-step, eight-step, mixed radix): decimation-in-frequency stages leave it an untwiddled sum, the last stage is one butterfly whose result q/2 is a difference of two trees of additions |
| C91 | any arithmetic, rounded, IEEE doubles | `out2`, `out4` unfold the dispatched Stockham transform of length 2 and 4; the values follow by `rnd64_repr` and evaluation of the roots of unity of order 2 and 4 |
| C92 | exact and rounded arithmetic | `Resample` relates two transforms; the identities for the exact DFT by splitting sums into blocks and interleaved parts and by orthogonality; rounding added with the bounds of C46–C48 |
| C93 | `Ieee ρ Ω` | every algorithm begins (Stockham DIF, mixed radix, eight-step, rows of six-step) or ends (DIT) with butterflies of even radix that see the operands exchanged by halves: sums stay (commutativity), differences change sign; the remaining stages keep the parity of the lane |
| C94 | `Ieee ρ Ω` | signs are the same in all lanes of a stage but the last, whose butterfly gets its odd operands negated and exchanges its results by halves; six-step and eight-step by following the index; inverse real transforms: the split keeps the sign of a lane, as n/2 is even, and unpacking doubles the shift |
| C95 | `Ieee ρ Ω` | the first stage has radix 4, 8 or 16 for every length that 4 divides (for the lengths given to decimation in time: its innermost stage); its butterfly, operands moved by a quarter, gives its results turned by powers of i; everything after it commutes with i (C65) |
| C96 | `Ieee ρ Ω` | the reordering before the forward transform makes a reversal a delay by half the length (C93), the rotation after it is one dot product per coefficient; the rotation before the inverse combines elements k and n−k, of the same parity (C94), and the reordering after it makes the delay a reversal |
| C97 | exact and rounded arithmetic | `Mirrored` relates a cosine and a Fourier transform; the sum over the doubled signal is folded at the mirror, each pair of roots of unity is a turned cosine; rounding added with the bounds of C46 and C47 |
| C98 | exact and rounded arithmetic | `TwoForOne` relates a complex and a real transform; linearity and conjugate symmetry of the exact transform; rounding added with the bounds of C46–C48 |
| C99 | object lifetimes over any arithmetic; exact and rounded arithmetic | induction over the rows with the frame of each call (`ClsSpec.rows`); two-dimensional: linearity of the exact transform, double sums, rounding added with the bounds of C46 |
| C100 | exact and rounded arithmetic | correlation = convolution with the reversed conjugate (index bijection), convolution theorem, identities of C55; rounding added with the bounds of C46 |
| C101 | exact and rounded arithmetic | correlation at lag 0 (C100) for forward transforms, conjugation (C55) for inverse ones; rounding added with the bounds of C46–C48 |

## 6. Findings (all are theorems)

N = 1 complex and N = 2 real/DCT transforms call through a null pointer (C14, C18); prime factors above 46341
overflow `int` (C26, e.g. 92698), and the factor search itself overflows for n ≥ 46339² without small factor (C36);
Bluestein overflows above 2^29 (C24, C45), the DCT from 2^30 on (C45), everything at 2^31−1 (C45); AVX2 detection does not test
AVX, and XGETBV is executed without testing OSXSAVE (C28); after a `setup` that threw the object must not be used (C32);
`ComplexFFT`, `RealDCT` and Bluestein objects must not be shared by two threads although their transforms look
read-only (C33); RealFFT's inverse destroys its input (C10_real); negative lengths end in `bad_alloc`, except −1 for
RealFFT (inert object) and all of them for Bluestein (ignored) (C44, C38); `z *= z.Re` and `z /= z.Re` are wrong, `proj`
is not `std::proj`, `z * x` turns infinities into NaN (C52); `simd_array` objects must not be copied (C53);
in release builds odd real lengths give wrong results and odd cosine lengths undefined behaviour (C57);
`mysqrt(2^(2j+1))` is not the nearest double to the square root, and the unitary factor of the real transforms is one ulp
off for such lengths (C59); the normalised transforms divide last, so that samples near the largest double overflow although
the result is representable (C60); `init_W`, which nothing calls, is wrong for lengths ≥ 3 that are not multiples of 4, and
`setup(int)` of the power-of-two classes, which nothing calls either, rounds the length down (C71); the mixed-radix inverse multiplies by the table entry `exp(-2πi)` as computed instead of by 1 (or not at all),
so that impulses are not transformed exactly (C67_inverse_ten); the complex transforms multiply by the rounded `1/n` where the real ones divide,
so that the mean value of 98 ones is not 1 (C88_ones). Not proved: `RFFT::fwd`/`inv` declare `z = y + Nh` with `__restrict` and reach the same
objects through `y`, which C compilers may assume does not happen; the model gives `__restrict` no meaning.

## 7. Mutation tests

`seeded/LOG.jsonl` records edits of the model as realistic bugs would make them, and which theorems then fail.
